import Verif.Model.Dump
import Verif.Props.Mapper

/-! # C90: the text that `size_node::dump` prints determines the tree -/
namespace Succinct
open Mapper Spec

namespace Spec

/-- depth, name and size of the nodes, each before its children -/
def preorder : Nodes → Nat → List (Nat × String × Nat)
  | .nil, _ => []
  | .cons name size ch next, d => (d, name, size) :: (preorder ch (d + 1) ++ preorder next d)

/-- a name that does not begin with a space and is on one line -/
def PlainName (s : String) : Prop := s.toList.head? ≠ some ' ' ∧ '\n' ∉ s.toList

instance (s : String) : Decidable (PlainName s) := by unfold PlainName; infer_instance

/-- all names of a list of nodes and their children are plain -/
def PlainNames : Nodes → Prop
  | .nil => True
  | .cons name _ ch next => PlainName name ∧ PlainNames ch ∧ PlainNames next

/-- the text is to have one line for each node, in this order: four spaces for each level, the name, a colon and a space, and the size in decimal -/
def listing (t : String × Nat × Nodes) : List Char :=
  (preorder (.cons t.1 t.2.1 t.2.2 .nil) 0).flatMap fun n =>
    List.replicate (4 * n.1) ' ' ++ n.2.1.toList ++ ": ".toList ++ (toString n.2.2).toList ++ ['\n']

end Spec

theorem dumpNodes_eq : ∀ (ns : Nodes) (d : Nat), dumpNodes ns d = (preorder ns d).flatMap fun n => dumpLine n.1 n.2.1 n.2.2
  | .nil, d => rfl
  | .cons name size ch next, d => by
    rw [dumpNodes, preorder, List.flatMap_cons, List.flatMap_append, dumpNodes_eq ch, dumpNodes_eq next, List.append_assoc]

theorem split_at {α : Type} [DecidableEq α] {c : α} : ∀ {a b x y : List α}, c ∉ a → c ∉ b → a ++ c :: x = b ++ c :: y → a = b ∧ x = y
  | [], [], x, y, _, _, h => ⟨rfl, (List.cons.inj h).2⟩
  | [], u :: b, x, y, _, hb, h => absurd (List.cons.inj h).1 (fun e => hb (by rw [← e]; simp))
  | u :: a, [], x, y, ha, _, h => absurd (List.cons.inj h).1 (fun e => ha (by rw [e]; simp))
  | u :: a, w :: b, x, y, ha, hb, h => by
    obtain ⟨rfl, h2⟩ := List.cons.inj h
    obtain ⟨h3, h4⟩ := split_at (fun k => ha (List.mem_cons_of_mem _ k)) (fun k => hb (List.mem_cons_of_mem _ k)) h2
    exact ⟨by rw [h3], h4⟩

theorem spaces_name : ∀ {a b : Nat} {x y : List Char}, x.head? ≠ some ' ' → y.head? ≠ some ' ' → List.replicate a ' ' ++ x = List.replicate b ' ' ++ y → a = b ∧ x = y
  | 0, 0, x, y, _, _, h => ⟨rfl, h⟩
  | 0, b + 1, x, y, hx, _, h => by
    rw [List.replicate_succ, List.replicate_zero, List.nil_append] at h
    rw [h] at hx
    exact absurd rfl hx
  | a + 1, 0, x, y, _, hy, h => by
    rw [List.replicate_succ, List.replicate_zero, List.nil_append] at h
    rw [← h] at hy
    exact absurd rfl hy
  | a + 1, b + 1, x, y, hx, hy, h => by
    rw [List.replicate_succ, List.replicate_succ] at h
    obtain ⟨h1, h2⟩ := spaces_name hx hy (List.cons.inj h).2
    exact ⟨by omega, h2⟩

theorem digits_ne {c : Char} (n : Nat) (hc : c.isDigit = false) : c ∉ Nat.toDigits 10 n := by
  intro h
  have := Nat.isDigit_of_mem_toDigits (by decide) (by decide) h
  rw [hc] at this
  cases this

theorem digits_inj {m n : Nat} (h : Nat.toDigits 10 m = Nat.toDigits 10 n) : m = n := by
  rw [← Nat.ofDigitChars_ten_toDigits (n := m), h, Nat.ofDigitChars_ten_toDigits]

theorem line_inj {d d' s s' : Nat} {n n' : String} (hn : PlainName n) (hn' : PlainName n') {x y : List Char}
    (h : dumpLine d n s ++ x = dumpLine d' n' s' ++ y) : (d, n, s) = (d', n', s') ∧ x = y := by
  have key : ∀ (d s : Nat) (n : String), PlainName n → '\n' ∉ List.replicate (d * 4) ' ' ++ n.toList ++ [':', ' '] ++ Nat.toDigits 10 s := by
    intro d s n hn
    have h1 := digits_ne (c := '\n') s (by decide)
    have h2 := hn.2
    simp only [List.mem_append, List.mem_replicate, not_or]
    exact ⟨⟨⟨fun k => absurd k.2 (by decide), h2⟩, by decide⟩, h1⟩
  unfold dumpLine at h
  rw [List.append_assoc _ ['\n'], List.append_assoc _ ['\n']] at h
  obtain ⟨h1, h2⟩ := split_at (key d s n hn) (key d' s' n' hn') h
  have h3 := congrArg List.reverse h1
  simp only [List.reverse_append, List.reverse_cons, List.reverse_nil, List.nil_append, List.cons_append, List.singleton_append] at h3
  obtain ⟨h4, h5⟩ := split_at (c := ' ') (by rw [List.mem_reverse]; exact digits_ne _ (by decide)) (by rw [List.mem_reverse]; exact digits_ne _ (by decide)) h3
  have h6 := digits_inj (List.reverse_inj.1 h4)
  have h7 := (List.cons.inj h5).2
  rw [← List.reverse_append, ← List.reverse_append] at h7
  obtain ⟨h8, h9⟩ := spaces_name hn.1 hn'.1 (List.reverse_inj.1 h7)
  have : d = d' := by omega
  subst this
  subst h6
  rw [String.toList_inj.1 h9]
  exact ⟨rfl, h2⟩

theorem lines_inj : ∀ {a b : List (Nat × String × Nat)}, (∀ p ∈ a, PlainName p.2.1) → (∀ p ∈ b, PlainName p.2.1) →
    (a.flatMap fun n => dumpLine n.1 n.2.1 n.2.2) = (b.flatMap fun n => dumpLine n.1 n.2.1 n.2.2) → a = b
  | [], [], _, _, _ => rfl
  | [], q :: b, _, _, h => by
    have := congrArg List.length h
    simp [dumpLine] at this
  | p :: a, [], _, _, h => by
    have := congrArg List.length h
    simp [dumpLine] at this
  | p :: a, q :: b, ha, hb, h => by
    rw [List.flatMap_cons, List.flatMap_cons] at h
    obtain ⟨h1, h2⟩ := line_inj (ha p (by simp)) (hb q (by simp)) h
    rw [show p = q from h1, lines_inj (fun x hx => ha x (by simp [hx])) (fun x hx => hb x (by simp [hx])) h2]

theorem preorder_names : ∀ (ns : Nodes) (d : Nat), PlainNames ns → ∀ p ∈ preorder ns d, PlainName p.2.1
  | .nil, _, _, p, h => by simp [preorder] at h
  | .cons name size ch next, d, hn, p, h => by
    rw [preorder, List.mem_cons, List.mem_append] at h
    rcases h with rfl | h | h
    · exact hn.1
    · exact preorder_names ch _ hn.2.1 p h
    · exact preorder_names next _ hn.2.2 p h

theorem preorder_inj : ∀ (ns ns' : Nodes) (d : Nat) (r r' : List (Nat × String × Nat)), (∀ p, r.head? = some p → p.1 < d) → (∀ p, r'.head? = some p → p.1 < d) →
    preorder ns d ++ r = preorder ns' d ++ r' → ns = ns' ∧ r = r'
  | .nil, .nil, _, _, _, _, _, h => ⟨rfl, h⟩
  | .nil, .cons n s ch nx, d, r, r', hr, _, h => by
    rw [preorder, preorder, List.nil_append] at h
    exact absurd (hr (d, n, s) (by rw [h]; rfl)) (Nat.lt_irrefl d)
  | .cons n s ch nx, .nil, d, r, r', _, hr, h => by
    rw [preorder, preorder, List.nil_append] at h
    exact absurd (hr (d, n, s) (by rw [← h]; rfl)) (Nat.lt_irrefl d)
  | .cons n s ch nx, .cons n' s' ch' nx', d, r, r', hr, hr', h => by
    rw [preorder, preorder, List.cons_append, List.cons_append, List.append_assoc, List.append_assoc] at h
    obtain ⟨h1, h2⟩ := List.cons.inj h
    have aux : ∀ (nx : Nodes) (r : List (Nat × String × Nat)), (∀ p, r.head? = some p → p.1 < d) → ∀ p, (preorder nx d ++ r).head? = some p → p.1 < d + 1 := by
      intro nx r hr p hp
      cases nx with
      | nil => have := hr p hp; omega
      | cons n s ch nx =>
        rw [preorder, List.cons_append, List.head?_cons] at hp
        cases hp
        simp
    obtain ⟨h3, h4⟩ := preorder_inj ch ch' (d + 1) _ _ (aux nx r hr) (aux nx' r' hr') h2
    obtain ⟨h5, h6⟩ := preorder_inj nx nx' d r r' hr hr' h4
    simp only [Prod.mk.injEq, true_and] at h1
    rw [h1.1, h1.2, h3, h5]
    exact ⟨rfl, h6⟩

/-- **C90**: the text is the listing of the tree, and two trees whose names are plain and that are printed alike are equal -/
theorem C90_dump (t t' : String × Nat × Nodes) : dump t = listing t ∧
    (PlainName t.1 → PlainNames t.2.2 → PlainName t'.1 → PlainNames t'.2.2 → dump t = dump t' → t = t') := by
  constructor
  · unfold dump listing
    rw [dumpNodes_eq]
    congr 1
    funext n
    unfold dumpLine
    rw [Nat.toString_eq_repr, Nat.toList_repr, Nat.mul_comm]
    rfl
  · intro h1 h2 h3 h4 h
    unfold dump at h
    rw [dumpNodes_eq, dumpNodes_eq] at h
    have := lines_inj (preorder_names (.cons t.1 t.2.1 t.2.2 .nil) 0 ⟨h1, h2, trivial⟩)
      (preorder_names (.cons t'.1 t'.2.1 t'.2.2 .nil) 0 ⟨h3, h4, trivial⟩) h
    have k := (preorder_inj (.cons t.1 t.2.1 t.2.2 .nil) (.cons t'.1 t'.2.1 t'.2.2 .nil) 0 [] [] (by simp) (by simp) (by rw [List.append_nil, List.append_nil]; exact this)).1
    injection k with k1 k2 k3 _
    exact Prod.ext k1 (Prod.ext k2 k3)

def Mapper.Lay.plainNames : Lay → Bool
  | .done => true
  | .pod _ _ rest => rest.plainNames
  | .vec n _ rest => decide (PlainName n) && rest.plainNames
  | .obj n inner rest => decide (PlainName n) && inner.plainNames && rest.plainNames

theorem describes_plain {v : Val} {ns : Nodes} (h : Describes v ns) (hl : v.lay.plainNames = true) : PlainNames ns := by
  induction h with
  | done => trivial
  | pod _ _ _ ih => exact ih hl
  | vec n es xs h ih =>
    simp only [Val.lay, Lay.plainNames, Bool.and_eq_true, decide_eq_true_eq] at hl
    exact ⟨hl.1, trivial, ih hl.2⟩
  | obj n h1 h2 ih1 ih2 =>
    simp only [Val.lay, Lay.plainNames, Bool.and_eq_true, decide_eq_true_eq] at hl
    exact ⟨hl.1.1, ih1 hl.1.2, ih2 hl.2⟩

/-- the tree of an object has plain names, so that its printed text determines it -/
def Spec.Dumps {α : Type} (c : Codec α) : Prop :=
  ∀ (x : α), c.fits x → ∀ name : String, PlainName name → ∃ t, sizeTreeOf (top c name x) = some t ∧ t.1 = name ∧ PlainNames t.2.2 ∧ dump t = listing t ∧
    ∀ t' : String × Nat × Nodes, PlainName t'.1 → PlainNames t'.2.2 → dump t' = dump t → t' = t

theorem dumps_of {α : Type} {c : Codec α} (hc : c.Lawful) {names : List String} (ht : TreeSpec c names) (hl : (c.lay .done).plainNames = true) : Dumps c := by
  intro x hx name hn
  obtain ⟨size, ch, h1, _, _, h4, _⟩ := ht x hx name
  have hp : PlainNames ch := describes_plain h4 (by rw [hc.layEq x _ hx]; exact hl)
  exact ⟨(name, size, ch), h1, rfl, hp, (C90_dump _ (name, size, ch)).1, fun t' k1 k2 h => (C90_dump t' (name, size, ch)).2 k1 k2 hn hp h⟩

/-- **C90** for the classes of the library -/
theorem C90_classes : Dumps Codec.bitVector ∧ Dumps Codec.rsBitVector ∧ Dumps Codec.bpVector ∧ Dumps Codec.darray ∧ Dumps Codec.darray64 ∧
    Dumps Codec.eliasFano ∧ Dumps Codec.efList ∧ Dumps Codec.efCompressedList ∧ Dumps Codec.gammaVector ∧ Dumps Codec.gammaBitVector ∧
    Dumps Codec.nibbleVector ∧ Dumps Codec.cartesianTree ∧ Dumps (Codec.topK (Codec.vu64 "m_v")) :=
  ⟨dumps_of Codec.bitVector_lawful C42_bit_vector (by decide +kernel), dumps_of Codec.rsBitVector_lawful C42_rs_bit_vector (by decide +kernel),
   dumps_of Codec.bpVector_lawful C42_bp_vector (by decide +kernel), dumps_of Codec.darray_lawful C42_darray (by decide +kernel),
   dumps_of Codec.darray64_lawful C42_darray64 (by decide +kernel), dumps_of Codec.eliasFano_lawful C42_elias_fano (by decide +kernel),
   dumps_of Codec.efList_lawful C42_elias_fano_list (by decide +kernel), dumps_of Codec.efCompressedList_lawful C42_elias_fano_compressed_list (by decide +kernel),
   dumps_of Codec.gammaVector_lawful C42_gamma_vector (by decide +kernel), dumps_of Codec.gammaBitVector_lawful C42_gamma_bit_vector (by decide +kernel),
   dumps_of Codec.nibbleVector_lawful C42_nibble_vector (by decide +kernel), dumps_of Codec.cartesianTree_lawful C42_cartesian_tree (by decide +kernel),
   dumps_of (Codec.topK_lawful (Codec.vu64_lawful _)) C42_topk_vector (by decide +kernel)⟩

/-- **C90**, names that are not plain can make different trees look alike -/
theorem C90_names_false : ∃ t t' : String × Nat × Nodes, t ≠ t' ∧ dump t = dump t' :=
  ⟨("a", 1, .cons "b" 2 .nil .nil), ("a: 1\n    b", 2, .nil), by decide +kernel⟩

/-! ## cases that meet the hypotheses -/

example : dump ("<TOP>", 82, .cons "m_high_bits" 58 (.cons "m_bits" 24 .nil .nil) (.cons "m_low_bits" 24 .nil .nil)) =
    "<TOP>: 82\n    m_high_bits: 58\n        m_bits: 24\n    m_low_bits: 24\n".toList := by decide +kernel
example : PlainName "<TOP>" ∧ ¬ PlainName " x" ∧ ¬ PlainName "a\nb" ∧ PlainName "" := by decide +kernel

end Succinct
