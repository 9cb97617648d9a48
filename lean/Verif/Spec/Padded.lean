/-!
# A bit sequence filled up to whole words

About plain lists of Booleans; nothing refers to the model of the C++ code.
-/
namespace Succinct.Spec

/-- `l` followed by the zeros that fill its last word of 64 bits -/
def padded (l : List Bool) : List Bool := l ++ List.replicate ((64 - l.length % 64) % 64) false

end Succinct.Spec
