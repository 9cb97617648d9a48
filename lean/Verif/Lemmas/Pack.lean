import Mathlib.Tactic.Ring

/-! Positional ("field") representation of numbers, used for the broadword code. -/
namespace Succinct

/-- the number with base-`2^w` digits `ds`, least significant first -/
def pack (w : Nat) : List Nat → Nat
  | [] => 0
  | d :: ds => d + 2^w * pack w ds

/-- the `k` least significant base-`2^w` digits -/
def digitsOf (w : Nat) : Nat → Nat → List Nat
  | 0, _ => []
  | k+1, x => x % 2^w :: digitsOf w k (x / 2^w)

@[simp] theorem pack_nil (w : Nat) : pack w [] = 0 := rfl
@[simp] theorem pack_cons (w d : Nat) (ds : List Nat) : pack w (d :: ds) = d + 2^w * pack w ds := rfl
@[simp] theorem digitsOf_length (w k x : Nat) : (digitsOf w k x).length = k := by
  induction k generalizing x with
  | zero => rfl
  | succ k ih => simp [digitsOf, ih]

theorem pack_digitsOf (w k x : Nat) : pack w (digitsOf w k x) = x % 2^(w*k) := by
  induction k generalizing x with
  | zero => simp [digitsOf, Nat.mod_one]
  | succ k ih =>
    simp only [digitsOf, pack_cons, ih]
    rw [Nat.mul_succ, Nat.add_comm (w*k) w, Nat.pow_add, Nat.mod_mul]

theorem digitsOf_lt (w k x : Nat) : ∀ d ∈ digitsOf w k x, d < 2^w := by
  induction k generalizing x with
  | zero => simp [digitsOf]
  | succ k ih =>
    intro d hd
    simp only [digitsOf, List.mem_cons] at hd
    rcases hd with rfl | h
    · exact Nat.mod_lt _ (Nat.two_pow_pos w)
    · exact ih _ d h

theorem pack_lt (w : Nat) (ds : List Nat) (h : ∀ d ∈ ds, d < 2^w) : pack w ds < 2^(w*ds.length) := by
  induction ds with
  | nil => simp
  | cons d ds ih =>
    have h1 := h d (by simp)
    have h2 := ih (fun d hd => h d (by simp [hd]))
    simp only [pack_cons, List.length_cons, Nat.mul_succ]
    rw [Nat.add_comm (w * ds.length) w, Nat.pow_add]
    have : 2^w * (pack w ds + 1) ≤ 2^w * 2^(w*ds.length) := Nat.mul_le_mul_left _ h2
    rw [Nat.mul_add] at this; omega

theorem digitsOf_pack (w : Nat) (ds : List Nat) (h : ∀ d ∈ ds, d < 2^w) :
    digitsOf w ds.length (pack w ds) = ds := by
  induction ds with
  | nil => rfl
  | cons d ds ih =>
    have h1 := h d (by simp)
    have hp := Nat.two_pow_pos w
    simp only [List.length_cons, digitsOf, pack_cons]
    rw [Nat.add_mul_mod_self_left, Nat.mod_eq_of_lt h1, Nat.add_mul_div_left _ _ hp,
      Nat.div_eq_of_lt h1, Nat.zero_add, ih (fun d hd => h d (by simp [hd]))]

theorem getElem?_digitsOf (w k x i : Nat) (h : i < k) :
    (digitsOf w k x)[i]? = some (x / 2^(w*i) % 2^w) := by
  induction k generalizing x i with
  | zero => omega
  | succ k ih =>
    cases i with
    | zero => simp [digitsOf]
    | succ i =>
      simp only [digitsOf, List.getElem?_cons_succ]
      rw [ih _ _ (by omega), Nat.div_div_eq_div_mul, Nat.mul_succ, Nat.add_comm (w*i) w, Nat.pow_add]

/-- a digit of a packed number -/
theorem pack_digit (w : Nat) (ds : List Nat) (h : ∀ d ∈ ds, d < 2^w) (i : Nat) (hi : i < ds.length) :
    pack w ds / 2^(w*i) % 2^w = ds[i] := by
  have h1 := getElem?_digitsOf w ds.length (pack w ds) i hi
  rw [digitsOf_pack w ds h] at h1
  rw [List.getElem?_eq_getElem hi] at h1
  exact (Option.some.inj h1).symm

/-- splitting bitwise operations at a power of two -/
theorem land_split (w a b c d : Nat) (ha : a < 2^w) (hc : c < 2^w) :
    (a + 2^w * b) &&& (c + 2^w * d) = (a &&& c) + 2^w * (b &&& d) := by
  have hac : a &&& c < 2^w := Nat.and_lt_two_pow _ hc
  apply Nat.eq_of_testBit_eq
  intro i
  rw [Nat.testBit_and, Nat.add_comm a, Nat.add_comm c, Nat.add_comm (a &&& c),
    Nat.testBit_two_pow_mul_add _ ha, Nat.testBit_two_pow_mul_add _ hc,
    Nat.testBit_two_pow_mul_add _ hac]
  split <;> simp [Nat.testBit_and]

theorem lor_split (w a b c d : Nat) (ha : a < 2^w) (hc : c < 2^w) :
    (a + 2^w * b) ||| (c + 2^w * d) = (a ||| c) + 2^w * (b ||| d) := by
  have hac : a ||| c < 2^w := Nat.or_lt_two_pow ha hc
  apply Nat.eq_of_testBit_eq
  intro i
  rw [Nat.testBit_or, Nat.add_comm a, Nat.add_comm c, Nat.add_comm (a ||| c),
    Nat.testBit_two_pow_mul_add _ ha, Nat.testBit_two_pow_mul_add _ hc,
    Nat.testBit_two_pow_mul_add _ hac]
  split <;> simp [Nat.testBit_or]

theorem lxor_split (w a b c d : Nat) (ha : a < 2^w) (hc : c < 2^w) :
    (a + 2^w * b) ^^^ (c + 2^w * d) = (a ^^^ c) + 2^w * (b ^^^ d) := by
  have hac : a ^^^ c < 2^w := Nat.xor_lt_two_pow ha hc
  apply Nat.eq_of_testBit_eq
  intro i
  rw [Nat.testBit_xor, Nat.add_comm a, Nat.add_comm c, Nat.add_comm (a ^^^ c),
    Nat.testBit_two_pow_mul_add _ ha, Nat.testBit_two_pow_mul_add _ hc,
    Nat.testBit_two_pow_mul_add _ hac]
  split <;> simp [Nat.testBit_xor]

section ops
variable (w : Nat)

theorem pack_land (xs ys : List Nat) (hl : xs.length = ys.length)
    (hx : ∀ d ∈ xs, d < 2^w) (hy : ∀ d ∈ ys, d < 2^w) :
    pack w xs &&& pack w ys = pack w (List.zipWith (· &&& ·) xs ys) := by
  induction xs generalizing ys with
  | nil => cases ys with
    | nil => simp
    | cons _ _ => simp at hl
  | cons x xs ih => cases ys with
    | nil => simp at hl
    | cons y ys =>
      simp only [pack_cons, List.zipWith_cons_cons]
      rw [land_split w _ _ _ _ (hx x (by simp)) (hy y (by simp)),
        ih ys (by simpa using hl) (fun d hd => hx d (by simp [hd])) (fun d hd => hy d (by simp [hd]))]

theorem pack_lor (xs ys : List Nat) (hl : xs.length = ys.length)
    (hx : ∀ d ∈ xs, d < 2^w) (hy : ∀ d ∈ ys, d < 2^w) :
    pack w xs ||| pack w ys = pack w (List.zipWith (· ||| ·) xs ys) := by
  induction xs generalizing ys with
  | nil => cases ys with
    | nil => simp
    | cons _ _ => simp at hl
  | cons x xs ih => cases ys with
    | nil => simp at hl
    | cons y ys =>
      simp only [pack_cons, List.zipWith_cons_cons]
      rw [lor_split w _ _ _ _ (hx x (by simp)) (hy y (by simp)),
        ih ys (by simpa using hl) (fun d hd => hx d (by simp [hd])) (fun d hd => hy d (by simp [hd]))]

theorem pack_lxor (xs ys : List Nat) (hl : xs.length = ys.length)
    (hx : ∀ d ∈ xs, d < 2^w) (hy : ∀ d ∈ ys, d < 2^w) :
    pack w xs ^^^ pack w ys = pack w (List.zipWith (· ^^^ ·) xs ys) := by
  induction xs generalizing ys with
  | nil => cases ys with
    | nil => simp
    | cons _ _ => simp at hl
  | cons x xs ih => cases ys with
    | nil => simp at hl
    | cons y ys =>
      simp only [pack_cons, List.zipWith_cons_cons]
      rw [lxor_split w _ _ _ _ (hx x (by simp)) (hy y (by simp)),
        ih ys (by simpa using hl) (fun d hd => hx d (by simp [hd])) (fun d hd => hy d (by simp [hd]))]

theorem pack_add (xs ys : List Nat) (hl : xs.length = ys.length) :
    pack w xs + pack w ys = pack w (List.zipWith (· + ·) xs ys) := by
  induction xs generalizing ys with
  | nil => cases ys with
    | nil => simp
    | cons _ _ => simp at hl
  | cons x xs ih => cases ys with
    | nil => simp at hl
    | cons y ys =>
      simp only [pack_cons, List.zipWith_cons_cons]
      rw [← ih ys (by simpa using hl)]; ring

/-- unary digitwise maps, when the digits are obtained by a function of each digit -/
theorem pack_sub_map (f g : Nat → Nat) (xs : List Nat) (h : ∀ d ∈ xs, g d ≤ f d) :
    pack w (xs.map g) ≤ pack w (xs.map f) ∧
    pack w (xs.map f) - pack w (xs.map g) = pack w (xs.map fun d => f d - g d) := by
  induction xs with
  | nil => simp
  | cons x xs ih =>
    obtain ⟨h1, h2⟩ := ih (fun d hd => h d (by simp [hd]))
    have h3 := h x (by simp)
    simp only [List.map_cons, pack_cons]
    have h4 : 2^w * pack w (xs.map g) ≤ 2^w * pack w (xs.map f) := Nat.mul_le_mul_left _ h1
    have h5 : 2^w * (pack w (xs.map f) - pack w (xs.map g)) =
        2^w * pack w (xs.map f) - 2^w * pack w (xs.map g) := Nat.mul_sub _ _ _
    rw [← h2, h5]
    omega

/-- digitwise subtraction without borrow -/
theorem pack_sub (xs ys : List Nat) (hl : xs.length = ys.length)
    (h : ∀ i (h1 : i < xs.length) (h2 : i < ys.length), ys[i] ≤ xs[i]) :
    pack w ys ≤ pack w xs ∧
    pack w xs - pack w ys = pack w (List.zipWith (· - ·) xs ys) := by
  induction xs generalizing ys with
  | nil => cases ys with
    | nil => simp
    | cons _ _ => simp at hl
  | cons x xs ih => cases ys with
    | nil => simp at hl
    | cons y ys =>
      obtain ⟨h1, h2⟩ := ih ys (by simpa using hl) (fun i h1 h2 => by
        have := h (i+1) (by simpa using h1) (by simpa using h2)
        simpa using this)
      have h3 := h 0 (by simp) (by simp)
      simp only [List.getElem_cons_zero] at h3
      simp only [List.zipWith_cons_cons, pack_cons]
      have h4 : 2^w * pack w ys ≤ 2^w * pack w xs := Nat.mul_le_mul_left _ h1
      have h5 : 2^w * (pack w xs - pack w ys) = 2^w * pack w xs - 2^w * pack w ys :=
        Nat.mul_sub _ _ _
      rw [← h2, h5]
      omega

/-- dividing every digit exactly -/
theorem pack_div (c : Nat) (hc : 0 < c) (xs : List Nat) (h : ∀ d ∈ xs, c ∣ d) :
    pack w xs / c = pack w (xs.map (· / c)) ∧ c ∣ pack w xs := by
  induction xs with
  | nil => simp
  | cons x xs ih =>
    obtain ⟨h1, h2⟩ := ih (fun d hd => h d (by simp [hd]))
    obtain ⟨y, rfl⟩ := h x (by simp)
    obtain ⟨z, hz⟩ := h2
    simp only [pack_cons, List.map_cons]
    rw [← h1, hz]
    constructor
    · rw [Nat.mul_div_cancel_left _ hc, Nat.mul_div_cancel_left _ hc]
      rw [show c * y + 2^w * (c * z) = c * (y + 2^w * z) by ring, Nat.mul_div_cancel_left _ hc]
    · exact ⟨y + 2^w * z, by ring⟩

theorem pack_replicate_one_succ (k : Nat) :
    pack w (List.replicate (k+1) 1) = pack w (List.replicate k 1) + 2^(w*k) := by
  induction k with
  | zero => simp [List.replicate]
  | succ k ih =>
    have e : pack w (List.replicate (k+1) 1) = 1 + 2^w * pack w (List.replicate k 1) := by
      rw [List.replicate_succ, pack_cons]
    rw [List.replicate_succ, pack_cons]
    conv_lhs => rw [ih]
    rw [e, Nat.mul_succ, Nat.pow_add]; ring

theorem pack_replicate (c k : Nat) :
    pack w (List.replicate k c) = c * pack w (List.replicate k 1) := by
  induction k with
  | zero => simp
  | succ k ih => rw [List.replicate_succ, pack_cons, ih, List.replicate_succ, pack_cons]; ring

end ops

/-- the integer with (possibly negative or too large) base-`2^w` digits -/
def packZ (w : Nat) : List Int → Int
  | [] => 0
  | d :: ds => d + 2^w * packZ w ds

/-- running sums starting from `c` -/
def psums (c : Int) : List Int → List Int
  | [] => []
  | d :: ds => (c + d) :: psums (c + d) ds

@[simp] theorem psums_length (c : Int) (ds : List Int) : (psums c ds).length = ds.length := by
  induction ds generalizing c with
  | nil => rfl
  | cons d ds ih => simp [psums, ih]

/-- multiplying by the all-ones pattern computes running sums, modulo `2^(w*k)` -/
theorem packZ_mul_ones (w : Nat) (c : Int) (ds : List Int) :
    ((c + packZ w ds) * (pack w (List.replicate ds.length 1) : Nat)) % (2^(w*ds.length) : Int)
      = packZ w (psums c ds) % (2^(w*ds.length) : Int) := by
  induction ds generalizing c with
  | nil => simp [packZ, psums, Int.emod_one]
  | cons d ds ih =>
    have ih' := ih (c + d)
    simp only [packZ, psums, List.length_cons]
    have hpow : (2:Int)^(w*(ds.length+1)) = 2^w * 2^(w*ds.length) := by
      rw [Nat.mul_succ, Nat.add_comm, Int.pow_add]
    have e2 := pack_replicate_one_succ w ds.length
    have e1 : pack w (List.replicate (ds.length+1) 1) = 1 + 2^w * pack w (List.replicate ds.length 1) := by
      rw [List.replicate_succ, pack_cons]
    generalize hO : (pack w (List.replicate ds.length 1)) = O at *
    generalize hO1 : (pack w (List.replicate (ds.length+1) 1)) = O1 at *
    obtain ⟨q, hq⟩ : ∃ q, (c + d + packZ w ds) * (O:Int) - packZ w (psums (c+d) ds) =
        2^(w*ds.length) * q := by
      have := Int.emod_emod_of_dvd
      exact Int.dvd_of_emod_eq_zero (Int.emod_eq_emod_iff_emod_sub_eq_zero.mp ih')
    apply Int.emod_eq_emod_iff_emod_sub_eq_zero.mpr
    apply Int.emod_eq_zero_of_dvd
    rw [hpow]
    refine ⟨q + packZ w ds, ?_⟩
    have c1 : (O1:Int) = 1 + 2^w * O := by rw [e1]; push_cast; ring
    have c2 : (O1:Int) = O + 2^(w*ds.length) := by rw [e2]; push_cast; ring
    calc (c + (d + 2^w * packZ w ds)) * (O1:Int) - (c + d + 2^w * packZ w (psums (c+d) ds))
        = (c + d) * (O1:Int) + 2^w * packZ w ds * (O1:Int) - (c + d) - 2^w * packZ w (psums (c+d) ds) := by ring
      _ = (c + d) * (1 + 2^w * O) + 2^w * packZ w ds * (O + 2^(w*ds.length)) - (c + d) - 2^w * packZ w (psums (c+d) ds) := by
          rw [← c1, ← c2]
      _ = 2^w * ((c + d + packZ w ds) * (O:Int) - packZ w (psums (c+d) ds)) + 2^w * 2^(w*ds.length) * packZ w ds := by ring
      _ = 2^w * (2^(w*ds.length) * q) + 2^w * 2^(w*ds.length) * packZ w ds := by rw [hq]
      _ = 2^w * 2^(w*ds.length) * (q + packZ w ds) := by ring

/-- natural-number digit lists as integer digit lists -/
theorem packZ_ofNat (w : Nat) (ds : List Nat) : packZ w (ds.map Int.ofNat) = (pack w ds : Nat) := by
  induction ds with
  | nil => rfl
  | cons d ds ih => simp [packZ, ih]

/-- the low `j` digits are exact if the digits below `j` are proper digits -/
theorem packZ_low (w : Nat) (ds : List Int) (j : Nat) (hj : j < ds.length)
    (h : ∀ i (hi : i < ds.length), i ≤ j → 0 ≤ ds[i] ∧ ds[i] < 2^w) :
    (packZ w ds % (2^(w*ds.length) : Int)).toNat / 2^(w*j) % 2^w = (ds[j]).toNat := by
  induction ds generalizing j with
  | nil => simp at hj
  | cons d ds ih =>
    have hpow : (2:Int)^(w*(ds.length+1)) = 2^w * 2^(w*ds.length) := by
      rw [Nat.mul_succ, Nat.add_comm, Int.pow_add]
    have h0 := h 0 (by simp) (by omega)
    simp only [List.getElem_cons_zero] at h0
    have hB : (0:Int) < 2^w := Int.pow_pos (by omega)
    have hM : (0:Int) < 2^(w*ds.length) := Int.pow_pos (by omega)
    -- decompose
    have key : packZ w (d :: ds) % (2^(w*(d::ds).length) : Int) =
        d + 2^w * (packZ w ds % 2^(w*ds.length)) := by
      simp only [packZ, List.length_cons, hpow]
      have e := Int.emod_nonneg (packZ w ds) (Int.ne_of_gt hM)
      have e' := Int.emod_lt_of_pos (packZ w ds) hM
      have ediv := Int.emod_add_mul_ediv (packZ w ds) (2^(w*ds.length))
      generalize packZ w ds % 2^(w*ds.length) = r at *
      generalize packZ w ds / 2^(w*ds.length) = q at *
      rw [← ediv]
      rw [show d + (2:Int)^w * (r + 2^(w*ds.length) * q) = (d + 2^w * r) + (2^w * 2^(w*ds.length)) * q by ring]
      rw [Int.add_mul_emod_self_left]
      apply Int.emod_eq_of_lt
      · have := Int.mul_nonneg (Int.le_of_lt hB) e; omega
      · have : (2:Int)^w * (r + 1) ≤ 2^w * 2^(w*ds.length) := Int.mul_le_mul_of_nonneg_left e' (Int.le_of_lt hB)
        rw [Int.mul_add] at this; omega
    rw [key]
    have e := Int.emod_nonneg (packZ w ds) (Int.ne_of_gt hM)
    obtain ⟨r, hr⟩ := Int.eq_ofNat_of_zero_le e
    obtain ⟨dn, hdn⟩ := Int.eq_ofNat_of_zero_le h0.1
    have hdlt : dn < 2^w := by
      have := h0.2; rw [hdn] at this; exact_mod_cast this
    have e3 : (d + 2^w * (packZ w ds % 2^(w*ds.length))).toNat = dn + 2^w * r := by
      rw [hr, hdn]
      have : ((dn:Int) + 2^w * (r:Int)) = ((dn + 2^w * r : Nat) : Int) := by push_cast; ring
      rw [this, Int.toNat_natCast]
    rw [e3]
    cases j with
    | zero =>
      simp only [Nat.mul_zero, Nat.pow_zero, Nat.div_one, List.getElem_cons_zero]
      rw [Nat.add_mul_mod_self_left, Nat.mod_eq_of_lt hdlt, hdn]; simp
    | succ j =>
      have := ih j (by simpa using hj) (fun i hi hij => by
        have := h (i+1) (by simpa using hi) (by omega)
        simpa using this)
      rw [hr] at this
      simp only [List.getElem_cons_succ]
      rw [← this]
      have hp := Nat.two_pow_pos w
      rw [Nat.mul_succ, Nat.add_comm (w*j) w, Nat.pow_add, ← Nat.div_div_eq_div_mul,
        Nat.add_mul_div_left _ _ hp, Nat.div_eq_of_lt hdlt, Nat.zero_add]
      rfl

end Succinct

namespace Succinct

theorem psums_range (n a : Nat) (c s : Nat → Nat) (hs : ∀ i, i < n → s (a+i+1) = s (a+i) + c (a+i)) :
    psums (s a) (((List.range n).map fun i => c (a+i)).map Int.ofNat)
      = ((List.range n).map fun i => s (a+i+1)).map Int.ofNat := by
  induction n generalizing a with
  | zero => rfl
  | succ n ih =>
    rw [List.range_succ_eq_map]
    simp only [List.map_cons, psums, List.map_map]
    have h0 := hs 0 (by omega)
    have e : ((s a : Int) + Int.ofNat (c (a+0))) = ((s (a+1) : Nat) : Int) := by
      rw [Nat.add_zero] at h0 ⊢; rw [h0]; simp
    rw [e]
    have := ih (a+1) (fun i hi => by
      have := hs (i+1) (by omega)
      rw [show a+1+i = a+(i+1) by omega]; exact this)
    simp only [List.map_map, Function.comp_def, Nat.succ_eq_add_one] at this ⊢
    rw [show (fun x => Int.ofNat (c (a + (x+1)))) = (fun x => Int.ofNat (c (a+1+x))) from by
      funext x; rw [show a+1+x = a+(x+1) by omega]]
    rw [this]
    simp only [Nat.add_zero]
    congr 1
    apply List.map_congr_left
    intro x _
    rw [show a+1+x+1 = a+(x+1)+1 by omega]

/-- multiplication by the all-ones pattern computes running sums -/
theorem mul_ones (w n : Nat) (c s : Nat → Nat) (h0 : s 0 = 0) (hs : ∀ i, i < n → s (i+1) = s i + c i)
    (hlt : ∀ i, i < n → s (i+1) < 2^w) :
    pack w ((List.range n).map c) * pack w (List.replicate n 1) % 2^(w*n)
      = pack w ((List.range n).map fun i => s (i+1)) := by
  have key := packZ_mul_ones w 0 (((List.range n).map c).map Int.ofNat)
  rw [packZ_ofNat] at key
  simp only [List.length_map, List.length_range, Int.zero_add] at key
  have h := psums_range n 0 c s (fun i hi => by simpa using hs i hi)
  simp only [Nat.zero_add, h0] at h
  rw [show ((0:Nat):Int) = 0 from rfl] at h
  rw [h, packZ_ofNat] at key
  have lt := pack_lt w ((List.range n).map fun i => s (i+1)) (by
    intro d hd
    obtain ⟨i, hi, rfl⟩ := List.mem_map.mp hd
    exact hlt i (by simpa using hi))
  rw [List.length_map, List.length_range] at lt
  have key' : pack w ((List.range n).map c) * pack w (List.replicate n 1) % 2^(w*n)
    = pack w ((List.range n).map fun i => s (i+1)) % 2^(w*n) := by exact_mod_cast key
  rw [key', Nat.mod_eq_of_lt lt]

/-- two-argument digitwise subtraction, no borrow -/
theorem pack_sub_range (w n : Nat) (f g : Nat → Nat) (h : ∀ i, i < n → g i ≤ f i) :
    pack w ((List.range n).map g) ≤ pack w ((List.range n).map f) ∧
    pack w ((List.range n).map f) - pack w ((List.range n).map g)
      = pack w ((List.range n).map fun i => f i - g i) :=
  pack_sub_map w f g (List.range n) (fun i hi => h i (by simpa using hi))

theorem pack_land_range (w n : Nat) (f g : Nat → Nat) (hf : ∀ i, i < n → f i < 2^w)
    (hg : ∀ i, i < n → g i < 2^w) :
    pack w ((List.range n).map f) &&& pack w ((List.range n).map g)
      = pack w ((List.range n).map fun i => f i &&& g i) := by
  rw [pack_land w _ _ (by simp), List.zipWith_map, List.zipWith_self]
  · intro d hd; obtain ⟨i, hi, rfl⟩ := List.mem_map.mp hd; exact hf i (by simpa using hi)
  · intro d hd; obtain ⟨i, hi, rfl⟩ := List.mem_map.mp hd; exact hg i (by simpa using hi)

theorem pack_lor_range (w n : Nat) (f g : Nat → Nat) (hf : ∀ i, i < n → f i < 2^w)
    (hg : ∀ i, i < n → g i < 2^w) :
    pack w ((List.range n).map f) ||| pack w ((List.range n).map g)
      = pack w ((List.range n).map fun i => f i ||| g i) := by
  rw [pack_lor w _ _ (by simp), List.zipWith_map, List.zipWith_self]
  · intro d hd; obtain ⟨i, hi, rfl⟩ := List.mem_map.mp hd; exact hf i (by simpa using hi)
  · intro d hd; obtain ⟨i, hi, rfl⟩ := List.mem_map.mp hd; exact hg i (by simpa using hi)

theorem pack_lxor_range (w n : Nat) (f g : Nat → Nat) (hf : ∀ i, i < n → f i < 2^w)
    (hg : ∀ i, i < n → g i < 2^w) :
    pack w ((List.range n).map f) ^^^ pack w ((List.range n).map g)
      = pack w ((List.range n).map fun i => f i ^^^ g i) := by
  rw [pack_lxor w _ _ (by simp), List.zipWith_map, List.zipWith_self]
  · intro d hd; obtain ⟨i, hi, rfl⟩ := List.mem_map.mp hd; exact hf i (by simpa using hi)
  · intro d hd; obtain ⟨i, hi, rfl⟩ := List.mem_map.mp hd; exact hg i (by simpa using hi)

theorem pack_congr_range (w n : Nat) (f g : Nat → Nat) (h : ∀ i, i < n → f i = g i) :
    pack w ((List.range n).map f) = pack w ((List.range n).map g) := by
  rw [List.map_congr_left]
  intro i hi; exact h i (by simpa using hi)

theorem pack_div_range (w n c : Nat) (hc : 0 < c) (f : Nat → Nat) (h : ∀ i, i < n → c ∣ f i) :
    pack w ((List.range n).map f) / c = pack w ((List.range n).map fun i => f i / c) := by
  rw [(pack_div w c hc _ _).1, List.map_map]; rfl
  intro d hd; obtain ⟨i, hi, rfl⟩ := List.mem_map.mp hd; exact h i (by simpa using hi)

theorem pack_digit_range (w n : Nat) (f : Nat → Nat) (hf : ∀ i, i < n → f i < 2^w) (i : Nat) (hi : i < n) :
    pack w ((List.range n).map f) / 2^(w*i) % 2^w = f i := by
  rw [pack_digit w _ _ i (by simpa using hi)]
  · simp
  · intro d hd; obtain ⟨i, hi, rfl⟩ := List.mem_map.mp hd; exact hf i (by simpa using hi)

theorem pack_lt_range (w n : Nat) (f : Nat → Nat) (hf : ∀ i, i < n → f i < 2^w) :
    pack w ((List.range n).map f) < 2^(w*n) := by
  have := pack_lt w ((List.range n).map f) (by
    intro d hd; obtain ⟨i, hi, rfl⟩ := List.mem_map.mp hd; exact hf i (by simpa using hi))
  simpa using this

/-- shifting a packed number up by one digit -/
theorem pack_shift (w : Nat) (ds : List Nat) : 2^w * pack w ds = pack w (0 :: ds) := by simp

/-- bits of a packed number -/
theorem pack_testBit (w : Nat) (ds : List Nat) (h : ∀ d ∈ ds, d < 2^w) (i t : Nat) (hi : i < ds.length)
    (ht : t < w) : (pack w ds).testBit (w*i+t) = (ds[i]).testBit t := by
  rw [← pack_digit w ds h i hi, Nat.testBit_mod_two_pow, Nat.testBit_div_two_pow]
  simp [ht, Nat.add_comm]

end Succinct
