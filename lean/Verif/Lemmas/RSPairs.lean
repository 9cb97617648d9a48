import Verif.Lemmas.RSBlock

/-! What `rs_bit_vector::build_indices` puts in the rank table. -/
namespace Succinct
namespace RSBitVector
open Broadword

/-- ones before word `j` of block `b`, within the block -/
def csub (f : Nat → Bool) (b j : Nat) : Nat := cnt f (512*b + 64*j) - cnt f (512*b)

theorem csub_zero (f : Nat → Bool) (b : Nat) : csub f b 0 = 0 := by simp [csub]
theorem csub_le (f : Nat → Bool) (b j : Nat) : csub f b j ≤ 64*j := by
  have := cnt_sub_le f (show 512*b ≤ 512*b+64*j by omega)
  unfold csub; omega
theorem csub_mono (f : Nat → Bool) (b i j : Nat) (h : i ≤ j) : csub f b i ≤ csub f b j := by
  have := cnt_mono f (show 512*b+64*i ≤ 512*b+64*j by omega)
  unfold csub; omega
theorem csub_add (f : Nat → Bool) (b j : Nat) : cnt f (512*b) + csub f b j = cnt f (512*b+64*j) := by
  have := cnt_mono f (show 512*b ≤ 512*b+64*j by omega)
  unfold csub; omega

/-- the packed subranks of the words `1 … s` of block `b` -/
def subs (f : Nat → Bool) (b s : Nat) : Nat := pack 9 ((List.range s).map fun i => csub f b (s - i))

theorem subs_zero (f : Nat → Bool) (b : Nat) : subs f b 0 = 0 := rfl
theorem subs_succ (f : Nat → Bool) (b s : Nat) : subs f b (s+1) = csub f b (s+1) + 512 * subs f b s := by
  unfold subs
  rw [List.range_succ_eq_map, List.map_cons, pack_cons, List.map_map]
  congr 3
  apply List.map_congr_left
  intro i hi
  simp only [Function.comp_apply]
  congr 1; omega
theorem subs_lt (f : Nat → Bool) (b s : Nat) (hs : s ≤ 7) : subs f b s < 2^(9*s) := by
  apply pack_lt_range
  intro i hi
  have := csub_le f b (s-i)
  omega
theorem subs_fld (f : Nat → Bool) (b i : Nat) (hi : i < 7) : fld 9 i (subs f b 7) = csub f b (7-i) := by
  apply fld_pack 9 7 _ _ i hi
  intro i hi
  have := csub_le f b (7-i)
  omega

theorem pushSub_toNat (S : Word) (c : Nat) (hS : S.toNat < 2^55) (hc : c < 512) :
    (pushSub S c).toNat = c + 512 * S.toNat := by
  unfold pushSub
  rw [BitVec.toNat_or, BitVec.toNat_shiftLeft, BitVec.toNat_ofNat, Nat.mod_eq_of_lt (a := c) (by omega),
    Nat.shiftLeft_eq, Nat.mod_eq_of_lt (by omega), ← Nat.shiftLeft_eq, ← Nat.shiftLeft_add_eq_or_of_lt (by omega),
    Nat.shiftLeft_eq]
  omega

/-- the rank table entries of blocks `< b`, and the rank of block `b` -/
structure Entries (f : Nat → Bool) (b : Nat) (pairs : List Nat) : Prop where
  len : pairs.length = 2*b+1
  rank : ∀ i, i ≤ b → pairs[2*i]? = some (cnt f (512*i))
  sub : ∀ i, i < b → pairs[2*i+1]? = some (subs f i 7)

theorem Entries.push {f : Nat → Bool} {b : Nat} {pairs : List Nat} (h : Entries f b pairs) (S R : Nat)
    (hS : S = subs f b 7) (hR : R = cnt f (512*(b+1))) : Entries f (b+1) (pairs ++ [S, R]) := by
  have hl := h.len
  refine ⟨by simp [hl]; omega, ?_, ?_⟩
  · intro i hi
    rw [List.getElem?_append]
    split
    · exact h.rank i (by omega)
    · rw [show 2*i - pairs.length = 1 by omega, show i = b+1 by omega, ← hR]; rfl
  · intro i hi
    rw [List.getElem?_append]
    split
    · exact h.sub i (by omega)
    · rw [show 2*i+1 - pairs.length = 0 by omega, show i = b by omega, ← hS]; rfl

/-- loop invariant of `build_indices` before word `i` -/
structure BInv (f : Nat → Bool) (i : Nat) (st : BuildState) : Prop where
  ent : Entries f (i/8) st.pairs
  next : st.nextRank = cnt f (64*i)
  cur : st.curSubrank = csub f (i/8) (i%8)
  sub : st.subranks.toNat = subs f (i/8) (i%8 - 1)

theorem buildStep_inv (f : Nat → Bool) (i : Nat) (st : BuildState) (w : Word) (h : BInv f i st)
    (hw : popcount w + cnt f (64*i) = cnt f (64*(i+1))) : BInv f (i+1) (buildStep st i w) := by
  have hc := csub_le f (i/8) (i%8)
  have hsub : (if i % 8 ≠ 0 then pushSub st.subranks st.curSubrank else st.subranks).toNat = subs f (i/8) (i%8) := by
    by_cases hs : i % 8 = 0
    · rw [if_neg (by omega), h.sub, hs]
    · rw [if_pos hs]
      have h1 := subs_lt f (i/8) (i%8-1) (by omega)
      have h2 : 2^(9*(i%8-1)) ≤ 2^54 := Nat.pow_le_pow_right (by omega) (by omega)
      rw [pushSub_toNat _ _ (by rw [h.sub]; omega) (by rw [h.cur]; omega), h.sub, h.cur]
      obtain ⟨s, hs'⟩ : ∃ s, i % 8 = s+1 := ⟨i%8-1, by omega⟩
      rw [hs', subs_succ]; rfl
  unfold buildStep
  simp only []
  split
  · rename_i h7
    refine ⟨?_, ?_, ?_, ?_⟩
    · rw [show (i+1)/8 = i/8+1 by omega]
      apply h.ent.push
      · rw [hsub, h7]
      · rw [h.next, show 512*(i/8+1) = 64*(i+1) by omega]; omega
    · simp only []; rw [h.next]; omega
    · simp only []; rw [show (i+1)%8 = 0 by omega, csub_zero]
    · simp only []; rw [show (i+1)%8 = 0 by omega]; rfl
  · refine ⟨?_, ?_, ?_, ?_⟩
    · rw [show (i+1)/8 = i/8 by omega]; exact h.ent
    · simp only []; rw [h.next]; omega
    · simp only []; rw [h.cur, show (i+1)/8 = i/8 by omega, show (i+1)%8 = i%8+1 by omega]
      have e1 := csub_add f (i/8) (i%8)
      have e2 := csub_add f (i/8) (i%8+1)
      rw [show 512*(i/8) + 64*(i%8) = 64*i by omega] at e1
      rw [show 512*(i/8) + 64*(i%8+1) = 64*(i+1) by omega] at e2
      omega
    · rw [show (i+1)/8 = i/8 by omega, show (i+1)%8-1 = i%8 by omega]; exact hsub

theorem buildLoop_inv (f : Nat → Bool) (bits : List Word) (i : Nat) (st : BuildState) (h : BInv f i st)
    (hw : ∀ k (hk : k < bits.length), popcount bits[k] + cnt f (64*(i+k)) = cnt f (64*(i+k+1))) :
    BInv f (i + bits.length) (buildLoop bits i st) := by
  induction bits generalizing i st with
  | nil => simpa [buildLoop] using h
  | cons w ws ih =>
    rw [buildLoop, List.length_cons, show i + (ws.length+1) = i+1+ws.length by omega]
    apply ih
    · exact buildStep_inv f i st w h (hw 0 (by simp))
    · intro k hk
      have := hw (k+1) (by simpa using hk)
      rw [show i+1+k = i+(k+1) by omega]
      exact this

/-- padding with a constant subrank -/
theorem pushSubN_toNat (f : Nat → Bool) (b : Nat) (cur n : Nat) (s : Nat) (S : Word) (hS : S.toNat = subs f b s)
    (hn : s + n ≤ 7) (hcur : ∀ j, s < j → csub f b j = cur) :
    (pushSubN n S cur).toNat = subs f b (s+n) := by
  induction n generalizing s S with
  | zero => exact hS
  | succ n ih =>
    rw [pushSubN, show s + (n+1) = s+1+n by omega]
    have hc := csub_le f b (s+1)
    have h1 := subs_lt f b s (by omega)
    have h2 : 2^(9*s) ≤ 2^54 := Nat.pow_le_pow_right (by omega) (by omega)
    have e := hcur (s+1) (by omega)
    apply ih (s+1)
    · rw [pushSub_toNat _ _ (by rw [hS]; omega) (by omega), subs_succ, e, hS]
    · omega
    · intro j hj; exact hcur j (by omega)

theorem pushSubN_zero (n : Nat) : (pushSubN n 0 0).toNat = 0 := by
  have : pushSub 0 0 = 0 := by decide
  induction n with
  | zero => rfl
  | succ n ih => rw [pushSubN, this]; exact ih

/-- number of blocks -/
def nblocks (bits : List Word) : Nat := (bits.length + 7) / 8

/-- the rank table: cumulative ranks and packed subranks of all blocks, plus one empty block -/
structure Table (f : Nat → Bool) (nb : Nat) (pairs : List Nat) : Prop where
  len : pairs.length = 2*nb+2
  rank : ∀ i, i ≤ nb → pairs[2*i]? = some (cnt f (512*i))
  sub : ∀ i, i ≤ nb → pairs[2*i+1]? = some (subs f i 7)

theorem popcount_word (bits : List Word) (k : Nat) (hk : k < bits.length) :
    popcount bits[k] + cnt (wbit bits) (64*k) = cnt (wbit bits) (64*(k+1)) := by
  rw [popcount_eq, show 64*(k+1) = 64*k+64 by omega, cnt_add, Nat.add_comm]
  congr 1
  apply cnt_congr
  intro t ht
  exact getElem_getLsbD bits k t hk ht

theorem wbit_cnt_const (bits : List Word) (p : Nat) (h : 64*bits.length ≤ p) :
    cnt (wbit bits) p = cnt (wbit bits) (64*bits.length) := by
  have := (cnt_eq_iff_false (f := wbit bits) h).2 (by
    intro i h1 h2
    exact wbit_of_ge bits i (by omega))
  omega

theorem subs_eq_zero (f : Nat → Bool) (b s : Nat) (h : ∀ j, csub f b j = 0) : subs f b s = 0 := by
  induction s with
  | zero => rfl
  | succ s ih => rw [subs_succ, ih, h]

theorem buildPairs_table (bits : List Word) : Table (wbit bits) (nblocks bits) (buildPairs bits) := by
  have hi := buildLoop_inv (wbit bits) bits 0 ⟨[0], 0, 0, 0⟩ ⟨⟨rfl, by intro i hi; simp at hi; subst hi; simp, by intro i hi; omega⟩,
    by simp, by simp [csub], rfl⟩ (by intro k hk; simpa using popcount_word bits k hk)
  rw [Nat.zero_add] at hi
  unfold buildPairs nblocks
  generalize buildLoop bits 0 ⟨[0], 0, 0, 0⟩ = st at *
  simp only []
  have hconst : ∀ j, 64*bits.length ≤ 512*(bits.length/8) + 64*j →
      csub (wbit bits) (bits.length/8) j = csub (wbit bits) (bits.length/8) (bits.length%8) := by
    intro j hj
    have e1 := csub_add (wbit bits) (bits.length/8) j
    have e2 := csub_add (wbit bits) (bits.length/8) (bits.length%8)
    rw [wbit_cnt_const bits _ hj] at e1
    rw [show 512*(bits.length/8) + 64*(bits.length%8) = 64*bits.length by omega] at e2
    omega
  by_cases h8 : bits.length % 8 = 0
  · rw [if_neg (by omega)]
    have hb : (bits.length+7)/8 = bits.length/8 := by omega
    rw [hb]
    have hcur := hi.cur
    have hsub := hi.sub
    rw [h8, csub_zero] at hcur
    rw [h8] at hsub
    have hs0 : st.subranks = 0 := BitVec.eq_of_toNat_eq hsub
    have hsz : ∀ j, csub (wbit bits) (bits.length/8) j = 0 := by
      intro j
      rw [hconst j (by omega), h8, csub_zero]
    refine ⟨by simp [hi.ent.len], ?_, ?_⟩
    · intro i hi'
      rw [List.getElem?_append_left (by rw [hi.ent.len]; omega)]; exact hi.ent.rank i hi'
    · intro i hi'
      rw [List.getElem?_append]
      split
      · rename_i h; rw [hi.ent.len] at h; exact hi.ent.sub i (by omega)
      · rename_i h; rw [hi.ent.len] at h
        rw [hi.ent.len, show i = bits.length/8 by omega, Nat.sub_self, hs0, hcur, pushSubN_zero,
          subs_eq_zero _ _ _ hsz]; rfl
  · rw [if_pos h8]
    have hb : (bits.length+7)/8 = bits.length/8+1 := by omega
    rw [hb]
    have hS := pushSubN_toNat (wbit bits) (bits.length/8) st.curSubrank (8 - bits.length%8) (bits.length%8-1)
      st.subranks hi.sub (by omega) (by
        intro j hj
        rw [hi.cur]; exact hconst j (by omega))
    rw [show bits.length%8-1 + (8-bits.length%8) = 7 by omega] at hS
    have he := hi.ent.push (pushSubN (8 - bits.length%8) st.subranks st.curSubrank).toNat st.nextRank hS (by
      rw [hi.next, wbit_cnt_const bits (512*(bits.length/8+1)) (by omega)])
    rw [List.append_assoc, show ([(pushSubN (8 - bits.length%8) st.subranks st.curSubrank).toNat] ++ [st.nextRank, 0]) =
      [(pushSubN (8 - bits.length%8) st.subranks st.curSubrank).toNat, st.nextRank] ++ [0] from rfl, ← List.append_assoc]
    generalize st.pairs ++ [(pushSubN (8 - bits.length%8) st.subranks st.curSubrank).toNat, st.nextRank] = P at he
    refine ⟨by simp [he.len], ?_, ?_⟩
    · intro i hi'
      rw [List.getElem?_append_left (by rw [he.len]; omega)]; exact he.rank i hi'
    · intro i hi'
      rw [List.getElem?_append]
      split
      · rename_i h; rw [he.len] at h; exact he.sub i (by omega)
      · rename_i h; rw [he.len] at h
        rw [he.len, show i = bits.length/8+1 by omega, Nat.sub_self]
        have : subs (wbit bits) (bits.length/8+1) 7 = 0 := subs_eq_zero _ _ _ (by
          intro j
          unfold csub
          rw [wbit_cnt_const bits _ (by omega), wbit_cnt_const bits (512*(bits.length/8+1)) (by omega), Nat.sub_self])
        rw [this]; rfl

end RSBitVector
end Succinct
