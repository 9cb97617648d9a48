/-!
# Basic conventions of the model

`Word` is the model of `uint64_t` when used as a bit pattern.  Partial operations return
`Option`; `none` is the distinct outcome "undefined behaviour, failed assertion, or size
arithmetic that would wrap".
-/

namespace Succinct

/-- `uint64_t` used as a bit pattern, e.g. the elements of `m_bits` (`bit_vector.hpp:526`). -/
abbrev Word := BitVec 64

/-- C++ `assert(p)` (e.g. `bit_vector.hpp:64`): the run continues only if `p` holds. -/
def assertP (p : Prop) [Decidable p] : Option Unit := if p then some () else none

/-- `x << k` on `uint64_t` (e.g. `bit_vector.hpp:50`); shifting by 64 or more is undefined in C++. -/
def shl (x : Word) (k : Nat) : Option Word := if k < 64 then some (x <<< k) else none

/-- `x >> k` on `uint64_t` (e.g. `bit_vector.hpp:35`); shifting by 64 or more is undefined in C++. -/
def shr (x : Word) (k : Nat) : Option Word := if k < 64 then some (x >>> k) else none

/-- Unsigned subtraction of sizes/positions (e.g. `bit_vector.hpp:102`).  The C++ result wraps modulo 2^64 when `b > a`;
the model refuses to continue in that case (`none`), so a successful model run never wrapped. -/
def subU (a b : Nat) : Option Nat := if b ≤ a then some (a - b) else none

/-- A left shift whose count may be 64 or more in code that masks the result away afterwards
(`bit_vector.hpp:258`, `bp_vector.cpp:178`, `bp_vector.cpp:239`).  The value of the over-wide
shift is given by an arbitrary oracle `ov`: theorems quantify over it. -/
def shlOv (ov : Word → Nat → Word) (x : Word) (k : Nat) : Word :=
  if k < 64 then x <<< k else ov x k

/-- `-init` and `-(len == 64)` converted to `uint64_t` (`bit_vector.hpp:30,258`): all ones if the condition holds, else 0. -/
def negBool (b : Bool) : Word := if b then BitVec.allOnes 64 else 0

end Succinct
