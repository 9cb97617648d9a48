import Verif.Lemmas.SpaceEF
import Verif.Lemmas.Gamma

/-! Sizes of the parts of `darray64`, `gamma_vector` and `gamma_bit_vector`. -/
namespace Succinct
open Broadword

theorem Builder.pushBack_shape {b b' : Builder} {x : Bool} (h : b.pushBack x = some b') (hb : b.WL) : b'.size = b.size + 1 ∧ b'.WL := by
  unfold Builder.WL at *
  unfold Builder.pushBack at h
  simp only [Option.bind_eq_bind, Option.bind_eq_some_iff] at h
  obtain ⟨v, _, h⟩ := h
  split at h
  · simp only [Option.bind_eq_some_iff, Option.pure_def, Option.some.injEq] at h
    obtain ⟨c, _, ws, hw, rfl⟩ := h
    have := Builder.orCur_length hw
    rw [List.length_append, List.length_singleton] at this
    refine ⟨rfl, ?_⟩
    simp only []; omega
  · simp only [Option.bind_eq_some_iff, Option.pure_def, Option.some.injEq] at h
    obtain ⟨ws, hw, rfl⟩ := h
    have := Builder.orCur_length hw
    refine ⟨rfl, ?_⟩
    simp only []; omega

namespace Darray64

/-- the shape of the builder after `n` ones in `s` bits -/
structure BShape (b : Darray64Builder) (n s : Nat) : Prop where
  ones : b.nOnes = n
  bl : b.block.length = (n + 1023)/1024
  sl : b.subblock.length = (n + 63)/64
  size : b.bits.size = s
  wl : b.bits.WL
  le : n ≤ s
  blk : ∀ x ∈ b.block, x < s
  sub : ∀ x ∈ b.subblock, x < 2^16

theorem new_shape {b : Darray64Builder} (h : new = some b) : BShape b 0 0 := by
  unfold new at h
  simp only [Option.bind_eq_bind, Option.bind_eq_some_iff, Option.pure_def, Option.some.injEq] at h
  obtain ⟨b0, e, rfl⟩ := h
  obtain ⟨h1, h2⟩ := Builder.new_shape e
  exact ⟨rfl, rfl, rfl, h1, h2, by omega, by simp, by simp⟩

theorem append1_shape {b b' : Darray64Builder} {n s k : Nat} (h : append1 b k = some b') (hs : BShape b n s) : BShape b' (n+1) (s+k+1) := by
  unfold append1 at h
  simp only [Option.bind_eq_bind, Option.bind_eq_some_iff] at h
  obtain ⟨b1, e1, b2, e2, last, e3, h⟩ := h
  obtain ⟨p1, p2⟩ := Builder.appendBits_shape e1 hs.wl
  obtain ⟨q1, q2⟩ := Builder.pushBack_shape e2 p2
  obtain ⟨_, rfl⟩ := Darray.subU_eq_some e3
  have hsz : b2.size = s + k + 1 := by rw [q1, p1, hs.size]
  have hbl := hs.bl
  have hsl := hs.sl
  have hle := hs.le
  rw [hs.ones] at h
  have hB : (if n % 1024 = 0 then b.block ++ [b2.size - 1] else b.block).length = (n + 1 + 1023)/1024 ∧
      ∀ x ∈ (if n % 1024 = 0 then b.block ++ [b2.size - 1] else b.block), x < s + k + 1 := by
    split
    · refine ⟨by rw [List.length_append, List.length_singleton]; omega, ?_⟩
      intro x hx
      rcases List.mem_append.1 hx with hx | hx
      · have := hs.blk x hx; omega
      · rw [List.mem_singleton] at hx; omega
    · exact ⟨by omega, fun x hx => by have := hs.blk x hx; omega⟩
  generalize (if n % 1024 = 0 then b.block ++ [b2.size - 1] else b.block) = block at *
  split at h
  · simp only [Option.bind_eq_some_iff, Option.pure_def, Option.some.injEq] at h
    obtain ⟨base, _, d, _, sub, rfl, rfl⟩ := h
    refine ⟨rfl, hB.1, ?_, hsz, q2, by omega, hB.2, ?_⟩
    · simp only [List.length_append, List.length_singleton]; omega
    · intro x hx
      rcases List.mem_append.1 hx with hx | hx
      · exact hs.sub x hx
      · rw [List.mem_singleton] at hx; subst hx; exact Nat.mod_lt _ (by decide)
  · simp only [Option.bind_eq_some_iff, Option.pure_def, Option.some.injEq] at h
    obtain ⟨sub, rfl, rfl⟩ := h
    exact ⟨rfl, hB.1, by simp only []; omega, hsz, q2, by omega, hB.2, hs.sub⟩

theorem fold_shape : ∀ (ks : List Nat) (b b' : Darray64Builder) (n s : Nat), ks.foldlM append1 b = some b' → BShape b n s →
    BShape b' (n + ks.length) (s + ks.sum + ks.length)
  | [], b, b', n, s, h, hs => by
    simp only [List.foldlM_nil, Option.pure_def, Option.some.injEq] at h
    subst h; exact hs
  | k :: ks, b, b', n, s, h, hs => by
    rw [List.foldlM_cons] at h
    simp only [Option.bind_eq_bind, Option.bind_eq_some_iff] at h
    obtain ⟨b1, h1, h2⟩ := h
    have := fold_shape ks b1 b' (n+1) (s+k+1) h2 (append1_shape h1 hs)
    rw [List.length_cons, List.sum_cons, show n + (ks.length + 1) = n + 1 + ks.length by omega,
      show s + (k + ks.sum) + (ks.length + 1) = s + k + 1 + ks.sum + ks.length by omega]; exact this

/-- the shape of a `darray64` with `n` ones in `s` bits -/
structure Shape (d : Darray64) (n s : Nat) : Prop where
  ones : d.numOnes = n
  bl : d.block.length = (n + 1023)/1024
  sl : d.subblock.length = (n + 63)/64
  size : d.bits.size = s
  wl : d.bits.bits.length = (s + 63)/64
  le : n ≤ s
  blk : ∀ x ∈ d.block, x < s
  sub : ∀ x ∈ d.subblock, x < 2^16

theorem ofBuilder_shape {b : Darray64Builder} {d : Darray64} {n s : Nat} (h : ofBuilder b = some d) (hs : BShape b n s) : Shape d n s := by
  unfold ofBuilder at h
  simp only [Option.bind_eq_bind, Option.bind_eq_some_iff, Option.pure_def, Option.some.injEq] at h
  obtain ⟨v, e, rfl⟩ := h
  obtain ⟨h1, h2⟩ := BitVector.ofBuilder_shape e hs.wl
  exact ⟨hs.ones, hs.bl, hs.sl, by simp only []; rw [h1, hs.size], by simp only []; rw [h2, hs.size], hs.le, hs.blk, hs.sub⟩

end Darray64

open EFCompressedList (bitsOf msb_log2)

theorem msb1_log2 {x : Word} {l : Nat} (h : msb1 x = some l) : l = Nat.log2 x.toNat := by
  unfold msb1 at h
  simp only [Option.bind_eq_bind, Option.bind_eq_some_iff] at h
  obtain ⟨_, _, h⟩ := h
  exact msb_log2 h

namespace GammaVector

theorem loop_shape : ∀ (xs : List Word) (hi hi' : Darray64Builder) (lo lo' : Builder) (n s : Nat), loop xs hi lo = some (hi', lo') →
    Darray64.BShape hi n s → lo.WL →
    Darray64.BShape hi' (n + xs.length) (s + bitsOf 1 xs + xs.length) ∧ lo'.WL ∧ lo'.size = lo.size + bitsOf 1 xs
  | [], hi, hi', lo, lo', n, s, h, h1, h2 => by
    simp only [loop, Option.some.injEq, Prod.mk.injEq] at h
    obtain ⟨rfl, rfl⟩ := h
    exact ⟨by simpa [bitsOf] using h1, h2, by simp [bitsOf]⟩
  | x :: xs, hi, hi', lo, lo', n, s, h, h1, h2 => by
    unfold loop at h
    simp only [Option.bind_eq_bind, Option.bind_eq_some_iff] at h
    obtain ⟨l, hl, one, _, lo1, e1, hi1, e2, h⟩ := h
    obtain ⟨p1, p2⟩ := Builder.appendBits_shape e1 h2
    obtain ⟨r1, r2, r3⟩ := loop_shape xs hi1 hi' lo1 lo' (n+1) (s+l+1) h (Darray64.append1_shape e2 h1) p2
    have hb : bitsOf 1 (x :: xs) = l + bitsOf 1 xs := by
      rw [msb1_log2 hl]; simp only [bitsOf, List.map_cons, List.sum_cons]
    rw [hb, List.length_cons]
    refine ⟨?_, r2, by omega⟩
    rw [show n + (xs.length+1) = n + 1 + xs.length by omega,
      show s + (l + bitsOf 1 xs) + (xs.length+1) = s + l + 1 + bitsOf 1 xs + xs.length by omega]
    exact r1

theorem build_shape {xs : List Word} {v : GammaVec} (h : build xs = some v) :
    Darray64.Shape v.high (xs.length + 1) (bitsOf 1 xs + xs.length + 1) ∧ v.low.size = bitsOf 1 xs ∧ v.low.bits.length = (bitsOf 1 xs + 63)/64 := by
  unfold build at h
  simp only [Option.bind_eq_bind, Option.bind_eq_some_iff, Option.pure_def, Option.some.injEq] at h
  obtain ⟨hi0, e0, lo0, f0, hi1, e1, ⟨hi2, lo2⟩, e2, hv, e3, lv, f3, rfl⟩ := h
  obtain ⟨n1, n2⟩ := Builder.new_shape f0
  obtain ⟨r1, r2, r3⟩ := loop_shape xs hi1 hi2 lo0 lo2 _ _ e2 (Darray64.append1_shape e1 (Darray64.new_shape e0)) n2
  obtain ⟨o1, o2⟩ := BitVector.ofBuilder_shape f3 r2
  rw [n1, Nat.zero_add] at r3
  rw [show (lo2 : Builder).size = _ from r3] at o1 o2
  refine ⟨?_, o1, o2⟩
  have := Darray64.ofBuilder_shape e3 r1
  rw [show 0 + 1 + xs.length = xs.length + 1 by omega, show 0 + 0 + 1 + bitsOf 1 xs + xs.length = bitsOf 1 xs + xs.length + 1 by omega] at this
  exact this

end GammaVector

namespace GammaBitVector

theorem loop_shape : ∀ (xs : List Word) (hi hi' : Darray64Builder) (lo lo' : Builder) (n s : Nat), loop xs hi lo = some (hi', lo') →
    Darray64.BShape hi n s → lo.WL →
    Darray64.BShape hi' (n + xs.length) (s + bitsOf 2 xs) ∧ lo'.WL ∧ lo'.size = lo.size + bitsOf 2 xs
  | [], hi, hi', lo, lo', n, s, h, h1, h2 => by
    simp only [loop, Option.some.injEq, Prod.mk.injEq] at h
    obtain ⟨rfl, rfl⟩ := h
    exact ⟨by simpa [bitsOf] using h1, h2, by simp [bitsOf]⟩
  | x :: xs, hi, hi', lo, lo', n, s, h, h1, h2 => by
    unfold loop at h
    simp only [Option.bind_eq_bind, Option.bind_eq_some_iff] at h
    obtain ⟨l, hl, u, hu, hi1, e2, one, _, lo1, e1, h⟩ := h
    have hpos : l > 0 := by unfold assertP at hu; split at hu; assumption; simp at hu
    obtain ⟨p1, p2⟩ := Builder.appendBits_shape e1 h2
    obtain ⟨r1, r2, r3⟩ := loop_shape xs hi1 hi' lo1 lo' (n+1) (s+(l-1)+1) h (Darray64.append1_shape e2 h1) p2
    have hb : bitsOf 2 (x :: xs) = l + bitsOf 2 xs := by
      rw [msb1_log2 hl]; simp only [bitsOf, List.map_cons, List.sum_cons]
    rw [hb, List.length_cons]
    refine ⟨?_, r2, by omega⟩
    rw [show n + (xs.length+1) = n + 1 + xs.length by omega,
      show s + (l + bitsOf 2 xs) = s + (l-1) + 1 + bitsOf 2 xs by omega]
    exact r1

theorem build_shape {xs : List Word} {v : GammaVec} (h : build xs = some v) :
    Darray64.Shape v.high (xs.length + 1) (bitsOf 2 xs + 1) ∧ v.low.size = bitsOf 2 xs ∧ v.low.bits.length = (bitsOf 2 xs + 63)/64 := by
  unfold build at h
  simp only [Option.bind_eq_bind, Option.bind_eq_some_iff, Option.pure_def, Option.some.injEq] at h
  obtain ⟨hi0, e0, lo0, f0, hi1, e1, ⟨hi2, lo2⟩, e2, hv, e3, lv, f3, rfl⟩ := h
  obtain ⟨n1, n2⟩ := Builder.new_shape f0
  obtain ⟨r1, r2, r3⟩ := loop_shape xs hi1 hi2 lo0 lo2 _ _ e2 (Darray64.append1_shape e1 (Darray64.new_shape e0)) n2
  obtain ⟨o1, o2⟩ := BitVector.ofBuilder_shape f3 r2
  rw [n1, Nat.zero_add] at r3
  rw [show (lo2 : Builder).size = _ from r3] at o1 o2
  refine ⟨?_, o1, o2⟩
  have := Darray64.ofBuilder_shape e3 r1
  rw [show 0 + 1 + xs.length = xs.length + 1 by omega, show 0 + 0 + 1 + bitsOf 2 xs = bitsOf 2 xs + 1 by omega] at this
  exact this

end GammaBitVector
end Succinct
