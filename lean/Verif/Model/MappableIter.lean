import Verif.Model.Mappable

/-! # `mappable_vector.hpp:93-99`: iterators kept by the caller -/
namespace Succinct.Mappable
variable {α : Type}

/-- `begin()` and the distance of `end()` from it (`mappable_vector.hpp:93-99`), as kept by the caller; the pointers do not own anything -/
def range (v : Vec α) : Ptr α × Nat := (v.data, v.size)

/-- what is read through iterators kept (`mappable_vector.hpp:30-31`: they are plain pointers); undefined if the buffer has been freed -/
def readRange (h : Heap α) (r : Ptr α × Nat) : Option (List α) := contents h ⟨r.1, r.2, none⟩

end Succinct.Mappable
