/-
The decoder of Squirrel files reads exactly what the format says: actions, declarations, files.
-/
import Verif.SqJsonProps

set_option linter.unusedSimpArgs false

namespace CV
namespace Sq

/-! ### Actions -/

theorem reads_choice {α : Type} {d : Nat → Json → Option α} {W : α → Json → Prop} (hr : Reads d W) : Reads (dChoice d) (WChoice W) where
  sound := by
    intro n j a h
    unfold dChoice at h
    split at h
    · cases h
    · split at h
      · simp only [Option.bind_eq_some_iff, Option.map_eq_some_iff] at h
        obtain ⟨x, h1, y, h2, rfl⟩ := h
        exact ⟨_, _, rfl, (dUint_iff ..).1 h1, hr.sound h2⟩
      · cases h
  complete := by
    rintro n j ⟨k, x⟩ ⟨a, b, rfl, h1, h2⟩ hd
    simp only [Json.depth, depthL] at hd
    have hn : ¬ n ≤ 1 := by omega
    simp only [dChoice, hn, if_false, (dUint_iff ..).2 h1, hr.complete h2 (show b.depth < n - 1 by omega), Option.bind_some, Option.map_some]

theorem reads_item {α : Type} {d : Nat → Json → Option α} {W : α → Json → Prop} (hr : Reads d W) : Reads (dItem d) (WItem W) where
  sound := by
    intro n j a h
    unfold dItem at h
    split at h
    · rename_i p s h1
      simp only [Option.bind_eq_some_iff, Option.map_eq_some_iff] at h
      obtain ⟨x, h2, y, h3, rfl⟩ := h
      exact ⟨_, _, ((dRec_iff ..).1 h1).2, (reads_choice hr).sound h2, (reads_choice hr).sound h3⟩
    · cases h
  complete := by
    rintro n j ⟨x, y⟩ ⟨p, s, h1, h2, h3⟩ hd
    have d1 := fields_depth h1
    simp only [List.mem_cons, List.not_mem_nil, or_false, forall_eq_or_imp, forall_eq] at d1
    simp only [dItem, rec_of h1 hd, (reads_choice hr).complete h2 (show p.depth < n - 1 by omega),
      (reads_choice hr).complete h3 (show s.depth < n - 1 by omega), Option.bind_some, Option.map_some]

theorem reads_cond : Reads dCond WCond where
  sound := by
    intro n j a h
    unfold dCond at h
    split at h
    · rename_i p s h1
      simp only [Option.bind_eq_some_iff, Option.map_eq_some_iff] at h
      obtain ⟨x, h2, y, h3, rfl⟩ := h
      exact ⟨_, _, ((dRec_iff ..).1 h1).2, (reads_list reads_var).sound h2, reads_term.sound h3⟩
    · cases h
  complete := by
    rintro n j ⟨x, y⟩ ⟨p, s, h1, h2, h3⟩ hd
    have d1 := fields_depth h1
    simp only [List.mem_cons, List.not_mem_nil, or_false, forall_eq_or_imp, forall_eq] at d1
    simp only [dCond, rec_of h1 hd, (reads_list reads_var).complete h2 (show p.depth < n - 1 by omega),
      reads_term.complete h3 (show s.depth < n - 1 by omega), Option.bind_some, Option.map_some]

theorem reads_out : Reads dOut WOut where
  sound := by
    intro n j a h
    unfold dOut at h
    split at h
    · rename_i p s h1
      simp only [Option.bind_eq_some_iff, Option.map_eq_some_iff] at h
      obtain ⟨x, h2, h3⟩ := h
      exact ⟨_, _, _, ((dRec_iff ..).1 h1).2, reads_path.sound h2, reads_term.sound h3⟩
    · cases h
  complete := by
    rintro n j a ⟨p, s, x, h1, h2, h3⟩ hd
    have d1 := fields_depth h1
    simp only [List.mem_cons, List.not_mem_nil, or_false, forall_eq_or_imp, forall_eq] at d1
    simp only [dOut, rec_of h1 hd, reads_path.complete h2 (show p.depth < n - 1 by omega),
      reads_term.complete h3 (show s.depth < n - 1 by omega), Option.bind_some, Option.map_some]

theorem reads_upd : Reads dUpd WUpd where
  sound := by
    intro n j a h
    unfold dUpd at h
    split at h
    · rename_i p s t h1
      simp only [Option.bind_eq_some_iff, Option.map_eq_some_iff] at h
      obtain ⟨x, h2, y, h3, z, h4, rfl⟩ := h
      exact ⟨_, _, _, ((dRec_iff ..).1 h1).2, reads_path.sound h2, (reads_list reads_term).sound h3, reads_term.sound h4⟩
    · cases h
  complete := by
    rintro n j a ⟨p, s, t, h1, h2, h3, h4⟩ hd
    have d1 := fields_depth h1
    simp only [List.mem_cons, List.not_mem_nil, or_false, forall_eq_or_imp, forall_eq] at d1
    simp only [dUpd, rec_of h1 hd, reads_path.complete h2 (show p.depth < n - 1 by omega), (reads_list reads_term).complete h3 (show s.depth < n - 1 by omega),
      reads_term.complete h4 (show t.depth < n - 1 by omega), Option.bind_some, Option.map_some]

theorem reads_act : Reads dAct WAct where
  sound := by
    intro n j a h
    unfold dAct at h
    split at h
    · rename_i h1
      simp only [Option.bind_eq_some_iff, Option.map_eq_some_iff] at h
      obtain ⟨x1, h2, x2, h3, x3, h4, x4, h5, x5, h6, x6, h7, x7, h8, x8, h9, rfl⟩ := h
      exact ⟨_, _, _, _, _, _, _, _, _, ((dRec_iff ..).1 h1).2, reads_path.sound h2, (reads_list (reads_item (reads_list reads_var))).sound h3, reads_path.sound h4,
        (reads_list reads_var).sound h5, reads_cond.sound h6, (reads_list reads_upd).sound h7, reads_out.sound h8, (reads_list reads_path).sound h9⟩
    · cases h
  complete := by
    rintro n j a ⟨x1, x2, x3, x4, x5, x6, x7, x8, p, h1, h2, h3, h4, h5, h6, h7, h8, h9⟩ hd
    have d1 := fields_depth h1
    simp only [List.mem_cons, List.not_mem_nil, or_false, forall_eq_or_imp, forall_eq] at d1
    simp only [dAct, rec_of h1 hd, reads_path.complete h2 (show x1.depth < n - 1 by omega),
      (reads_list (reads_item (reads_list reads_var))).complete h3 (show x2.depth < n - 1 by omega),
      reads_path.complete h4 (show x3.depth < n - 1 by omega), (reads_list reads_var).complete h5 (show x4.depth < n - 1 by omega),
      reads_cond.complete h6 (show x5.depth < n - 1 by omega), (reads_list reads_upd).complete h7 (show x6.depth < n - 1 by omega),
      reads_out.complete h8 (show x7.depth < n - 1 by omega), (reads_list reads_path).complete h9 (show x8.depth < n - 1 by omega),
      Option.bind_some, Option.map_some]

/-! ### Declarations -/

theorem reads_funTy : Reads dFunTy WFunTy where
  sound := by
    intro n j a h
    unfold dFunTy at h
    split at h
    · rename_i p s t h1
      simp only [Option.bind_eq_some_iff, Option.map_eq_some_iff] at h
      obtain ⟨x, h2, y, h3, z, h4, rfl⟩ := h
      exact ⟨_, _, _, ((dRec_iff ..).1 h1).2, (reads_list reads_tvar).sound h2, (reads_list reads_sort).sound h3, reads_sort.sound h4⟩
    · cases h
  complete := by
    rintro n j a ⟨p, s, t, h1, h2, h3, h4⟩ hd
    have d1 := fields_depth h1
    simp only [List.mem_cons, List.not_mem_nil, or_false, forall_eq_or_imp, forall_eq] at d1
    simp only [dFunTy, rec_of h1 hd, (reads_list reads_tvar).complete h2 (show p.depth < n - 1 by omega),
      (reads_list reads_sort).complete h3 (show s.depth < n - 1 by omega), reads_sort.complete h4 (show t.depth < n - 1 by omega), Option.bind_some, Option.map_some]

theorem reads_content {α : Type} {d : Nat → Json → Option α} {W : α → Json → Prop} (hr : Reads d W) : Reads (dContent d) (WContent W) where
  sound := by
    intro n j a h
    unfold dContent at h
    split at h
    · rename_i p s h1
      simp only [Option.bind_eq_some_iff, Option.map_eq_some_iff] at h
      obtain ⟨x, h2, y, h3, rfl⟩ := h
      exact ⟨_, _, ((dRec_iff ..).1 h1).2, reads_path.sound h2, hr.sound h3⟩
    · cases h
  complete := by
    rintro n j ⟨x, y⟩ ⟨p, s, h1, h2, h3⟩ hd
    have d1 := fields_depth h1
    simp only [List.mem_cons, List.not_mem_nil, or_false, forall_eq_or_imp, forall_eq] at d1
    simp only [dContent, rec_of h1 hd, reads_path.complete h2 (show p.depth < n - 1 by omega),
      hr.complete h3 (show s.depth < n - 1 by omega), Option.bind_some, Option.map_some]

theorem unit_one {α : Type} {f : String → Option α} {l : List String} {a : α} (h : ∀ k, f k = some a ↔ k ∈ l) {n : Nat} {j : Json} (hd : j.depth < n) :
    dUnit f n j = some a ↔ ∃ k ∈ l, UnitOf k j := by
  constructor
  · intro h'
    obtain ⟨k, h1, h2⟩ := unit_sound h'
    exact ⟨k, (h k).1 h1, h2⟩
  · rintro ⟨k, h1, h2⟩
    exact unit_of h2 ((h k).2 h1) hd

theorem dh_iff (k : String) : dhOf k = some () ↔ k ∈ ["DH_DDH", "DH_CDH", "DH_GDH"] := by
  constructor
  · intro h
    unfold dhOf at h
    split at h <;> simp_all
  · intro h
    simp only [List.mem_cons, List.not_mem_nil, or_false] at h
    rcases h with rfl | rfl | rfl <;> rfl

theorem assoc_iff (k : String) : assocOf k = some () ↔ k ∈ ["Right", "Left", "NonAssoc"] := by
  constructor
  · intro h
    unfold assocOf at h
    split at h <;> simp_all
  · intro h
    simp only [List.mem_cons, List.not_mem_nil, or_false] at h
    rcases h with rfl | rfl | rfl <;> rfl

theorem reads_dh : Reads (dUnit dhOf) fun (_ : Unit) j => ∃ k ∈ ["DH_DDH", "DH_CDH", "DH_GDH"], UnitOf k j where
  sound := by
    intro n j a h
    obtain ⟨k, h1, h2⟩ := unit_sound h
    exact ⟨k, (dh_iff k).1 h1, h2⟩
  complete := by
    rintro n j ⟨⟩ ⟨k, h1, h2⟩ hd
    exact unit_of h2 ((dh_iff k).2 h1) hd

theorem reads_symbType : Reads dSymbType fun _ j => WSymbType j where
  sound := by
    intro n j a h
    unfold dSymbType at h
    split at h
    · split at h
      · cases h
      · obtain ⟨k, h1, h2⟩ := unit_sound h
        exact .inr ⟨_, rfl, k, (assoc_iff k).1 h1, h2⟩
    · obtain ⟨k, h1, h2⟩ := unit_sound h
      split at h1
      · rename_i hk
        subst hk
        exact .inl h2
      · cases h1
  complete := by
    rintro n j ⟨⟩ h hd
    rcases h with h | ⟨v, h1, k, h2, h3⟩
    · have e := unit_of (f := fun s => if s = "Prefix" then some () else none) (a := ()) h (by simp) hd
      unfold dSymbType
      split
      · rcases h with h | h <;> simp at h
      · exact e
    · have := alt_depth h1
      cases h1
      have hn : ¬ n ≤ 1 := by omega
      simp only [dSymbType, hn, if_false]
      exact unit_of h3 ((assoc_iff k).2 h2) (by omega)

theorem absUnit_sound {k : String} {f : List Path → OpDef} {j : Json} (h : absUnit k = some f) (hj : UnitOf k j) : WAbs f j := by
  unfold absUnit at h
  split at h <;> cases h
  · exact .hash _ hj
  · exact .senc _ hj
  · exact .checkSign _ hj
  all_goals exact .other _ _ (by simp) hj

theorem dAbs_unit {n : Nat} {k : String} {f : List Path → OpDef} {j : Json} (h : UnitOf k j) (hk : absUnit k = some f) (hd : j.depth < n) : dAbs n j = some f := by
  have e := unit_of h hk hd
  unfold dAbs
  split
  · rcases h with h | h
    · cases h
    · simp only [Json.obj.injEq, List.cons.injEq, Prod.mk.injEq, and_true] at h
      obtain ⟨rfl, _⟩ := h
      cases hk
  · rcases h with h | h
    · cases h
    · simp only [Json.obj.injEq, List.cons.injEq, Prod.mk.injEq, and_true] at h
      obtain ⟨rfl, _⟩ := h
      cases hk
  · exact e

theorem reads_abs : Reads dAbs WAbs where
  sound := by
    intro n j a h
    unfold dAbs at h
    split at h
    · split at h
      · cases h
      · simp only [Option.map_eq_some_iff] at h
        obtain ⟨l, h1, rfl⟩ := h
        exact .dh _ _ _ rfl ((reads_list reads_dh).sound h1)
    · split at h
      · cases h
      · simp only [Option.map_eq_some_iff] at h
        obtain ⟨l, h1, rfl⟩ := h
        exact .abstract _ _ rfl (reads_symbType.sound h1)
    · obtain ⟨k, h1, h2⟩ := unit_sound h
      exact absUnit_sound h1 h2
  complete := by
    intro n j a h hd
    cases h with
    | hash _ h => exact dAbs_unit h rfl hd
    | senc _ h => exact dAbs_unit h rfl hd
    | checkSign _ h => exact dAbs_unit h rfl hd
    | other k _ hk h =>
      simp only [List.mem_cons, List.not_mem_nil, or_false] at hk
      rcases hk with rfl | rfl | rfl | rfl | rfl <;> exact dAbs_unit h rfl hd
    | dh v l _ h1 h2 =>
      have := alt_depth h1
      cases h1
      have hn : ¬ n ≤ 1 := by omega
      simp only [dAbs, hn, if_false, (reads_list reads_dh).complete h2 (show v.depth < n - 1 by omega), Option.map_some]
    | abstract v _ h1 h2 =>
      have := alt_depth h1
      cases h1
      have hn : ¬ n ≤ 1 := by omega
      simp only [dAbs, hn, if_false, reads_symbType.complete (a := ()) h2 (show v.depth < n - 1 by omega), Option.map_some]

theorem reads_abstract : Reads dAbstract WAbstract where
  sound := by
    intro n j a h
    unfold dAbstract at h
    split at h
    · rename_i x l h1
      simp only [Option.bind_eq_some_iff, Option.map_eq_some_iff] at h
      obtain ⟨f, h2, ps, h3, rfl⟩ := h
      exact ⟨_, _, _, _, ((dFlat_iff ..).1 h1).2, reads_abs.sound h2, (reads_list reads_path).sound h3, rfl⟩
    · cases h
  complete := by
    rintro n j a ⟨x, l, f, ps, h1, h2, h3, rfl⟩ hd
    have d1 := objOf_depth h1
    simp only [List.mem_cons, List.not_mem_nil, or_false, forall_eq_or_imp, forall_eq] at d1
    simp only [dAbstract, flat_of h1 hd, reads_abs.complete h2 (show x.depth < n - 1 by omega),
      (reads_list reads_path).complete h3 (show l.depth < n - 1 by omega), Option.bind_some, Option.map_some]

theorem reads_concrete : Reads dConcrete WConcrete where
  sound := by
    intro n j a h
    unfold dConcrete at h
    split at h
    · rename_i h1
      simp only [Option.bind_eq_some_iff, Option.map_eq_some_iff] at h
      obtain ⟨x1, h2, x2, h3, x3, h4, x4, h5, x5, h6, rfl⟩ := h
      exact ⟨_, _, _, _, _, _, _, _, _, _, ((dRec_iff ..).1 h1).2, (dSymb_iff ..).1 h2, (reads_list reads_tvar).sound h3, (reads_list reads_var).sound h4,
        reads_sort.sound h5, reads_term.sound h6, rfl⟩
    · cases h
  complete := by
    rintro n j a ⟨x1, x2, x3, x4, x5, y1, y2, y3, y4, y5, h1, h2, h3, h4, h5, h6, rfl⟩ hd
    have d1 := fields_depth h1
    simp only [List.mem_cons, List.not_mem_nil, or_false, forall_eq_or_imp, forall_eq] at d1
    simp only [dConcrete, rec_of h1 hd, (dSymb_iff ..).2 h2, (reads_list reads_tvar).complete h3 (show x2.depth < n - 1 by omega),
      (reads_list reads_var).complete h4 (show x3.depth < n - 1 by omega), reads_sort.complete h5 (show x4.depth < n - 1 by omega),
      reads_term.complete h6 (show x5.depth < n - 1 by omega), Option.bind_some, Option.map_some]

theorem reads_def : Reads dDef WDef where
  sound := by
    intro n j a h
    unfold dDef at h
    split at h
    · cases h
    · rename_i hn
      cases h1 : dAbstract n j with
      | some o =>
        rw [h1] at h
        cases h
        exact .inl (reads_abstract.sound h1)
      | none =>
        rw [h1] at h
        refine .inr ⟨reads_concrete.sound h, fun o' ho => ?_⟩
        rw [reads_abstract.complete ho (by omega)] at h1
        cases h1
  complete := by
    intro n j a h hd
    have hn : ¬ n ≤ j.depth := by omega
    simp only [dDef, hn, if_false]
    rcases h with h | ⟨h, h'⟩
    · rw [reads_abstract.complete h hd]
      rfl
    · cases h1 : dAbstract n j with
      | some o => exact absurd (reads_abstract.sound h1) (h' o)
      | none => exact reads_concrete.complete h hd

theorem reads_op : Reads dOp WOp where
  sound := by
    intro n j a h
    unfold dOp at h
    split at h
    · rename_i p s h1
      simp only [Option.bind_eq_some_iff, Option.map_eq_some_iff] at h
      obtain ⟨x, h2, y, h3, rfl⟩ := h
      exact ⟨_, _, ((dRec_iff ..).1 h1).2, reads_funTy.sound h2, reads_def.sound h3⟩
    · cases h
  complete := by
    rintro n j a ⟨p, s, h1, h2, h3⟩ hd
    have d1 := fields_depth h1
    simp only [List.mem_cons, List.not_mem_nil, or_false, forall_eq_or_imp, forall_eq] at d1
    simp only [dOp, rec_of h1 hd, reads_funTy.complete h2 (show p.depth < n - 1 by omega),
      reads_def.complete h3 (show s.depth < n - 1 by omega), Option.bind_some, Option.map_some]

theorem reads_structBody : Reads dStructBody fun _ j => WStructBody j where
  sound := by
    intro n j a h
    unfold dStructBody at h
    split at h
    · rename_i p s h1
      simp only [Option.bind_eq_some_iff, Option.map_eq_some_iff] at h
      obtain ⟨x, h2, y, h3, _⟩ := h
      exact ⟨_, _, _, _, ((dRec_iff ..).1 h1).2, reads_term.sound h2, reads_var.sound h3⟩
    · cases h
  complete := by
    rintro n j a ⟨p, s, x, y, h1, h2, h3⟩ hd
    have d1 := fields_depth h1
    simp only [List.mem_cons, List.not_mem_nil, or_false, forall_eq_or_imp, forall_eq] at d1
    simp only [dStructBody, rec_of h1 hd, reads_term.complete h2 (show p.depth < n - 1 by omega),
      reads_var.complete h3 (show s.depth < n - 1 by omega), Option.bind_some, Option.map_some]

theorem struct_sound {n : Nat} {j : Json} {a : MacDef} (h : dStruct n j = some a) : a = .structured ∧ WStruct j := by
  unfold dStruct at h
  split at h
  · rename_i h1
    simp only [Option.bind_eq_some_iff, Option.map_eq_some_iff] at h
    obtain ⟨x1, h2, x2, h3, x3, h4, x4, h5, x5, h6, x6, h7, rfl⟩ := h
    exact ⟨rfl, _, _, _, _, _, _, _, _, _, _, _, ((dRec_iff ..).1 h1).2, reads_path.sound h2, reads_term.sound h3, reads_term.sound h4, reads_structBody.sound h5,
      reads_sort.sound h6, reads_sort.sound h7⟩
  · cases h

theorem struct_complete {n : Nat} {j : Json} (h : WStruct j) (hd : j.depth < n) : dStruct n j = some .structured := by
  obtain ⟨x1, x2, x3, x4, x5, x6, y1, y2, y3, y4, y5, h1, h2, h3, h4, h5, h6, h7⟩ := h
  have d1 := fields_depth h1
  simp only [List.mem_cons, List.not_mem_nil, or_false, forall_eq_or_imp, forall_eq] at d1
  simp only [dStruct, rec_of h1 hd, reads_path.complete h2 (show x1.depth < n - 1 by omega),
    reads_term.complete h3 (show x2.depth < n - 1 by omega), reads_term.complete h4 (show x3.depth < n - 1 by omega),
    reads_structBody.complete (a := ()) h5 (show x4.depth < n - 1 by omega), reads_sort.complete h6 (show x5.depth < n - 1 by omega),
    reads_sort.complete h7 (show x6.depth < n - 1 by omega), Option.bind_some, Option.map_some]

theorem protOf_iff (k : String) (a : MacDef) : protOf k = some a ↔ a = .protocol ∧ (k = "Output" ∨ k = "Cond") := by
  constructor
  · intro h
    unfold protOf at h
    split at h <;> cases h
    · exact ⟨rfl, .inl rfl⟩
    · exact ⟨rfl, .inr rfl⟩
  · rintro ⟨rfl, rfl | rfl⟩ <;> rfl

theorem reads_shape : Reads dShape fun _ j => WShape j where
  sound := by
    intro n j a h
    unfold dShape at h
    split at h
    · rename_i p s h1
      simp only [Option.bind_eq_some_iff, Option.map_eq_some_iff] at h
      obtain ⟨x, h2, y, h3, _⟩ := h
      obtain ⟨k, h4, h5⟩ := unit_sound h2
      split at h4
      · rename_i hk
        exact ⟨_, _, _, ((dRec_iff ..).1 h1).2, by rcases hk with rfl | rfl; exacts [.inl h5, .inr h5], (reads_list (reads_item (reads_uint _))).sound h3⟩
      · cases h4
    · cases h
  complete := by
    rintro n j a ⟨p, s, x, h1, h2, h3⟩ hd
    have d1 := fields_depth h1
    simp only [List.mem_cons, List.not_mem_nil, or_false, forall_eq_or_imp, forall_eq] at d1
    have e : dUnit (fun s => if s = "Large" ∨ s = "Strict" then some () else none) (n - 1) p = some () := by
      rcases h2 with h2 | h2
      · exact unit_of h2 (by simp) (by omega)
      · exact unit_of h2 (by simp) (by omega)
    simp only [dShape, rec_of h1 hd, e, (reads_list (reads_item (reads_uint _))).complete h3 (show s.depth < n - 1 by omega),
      Option.bind_some, Option.map_some]

theorem reads_mac : Reads dMac WMac where
  sound := by
    intro n j a h
    unfold dMac at h
    split at h
    · cases h
    · split at h
      · rename_i v
        unfold dGeneral at h
        split at h
        · cases h
        · cases h1 : dUnit protOf (n - 1) v with
          | some o =>
            rw [h1] at h
            cases h
            obtain ⟨k, h2, h3⟩ := unit_sound h1
            obtain ⟨rfl, h4⟩ := (protOf_iff _ _).1 h2
            exact .protocol _ _ rfl (by rcases h4 with rfl | rfl; exacts [.inl h3, .inr h3])
          | none =>
            rw [h1] at h
            obtain ⟨rfl, h2⟩ := struct_sound h
            exact .structured _ _ rfl h2
      · unfold dGlobal at h
        split at h
        · rename_i h1
          simp only [Option.bind_eq_some_iff] at h
          obtain ⟨x1, h2, x2, h3, h4⟩ := h
          unfold dGlobalData at h4
          split at h4
          · rename_i h5
            simp only [Option.bind_eq_some_iff, Option.map_eq_some_iff] at h4
            obtain ⟨y1, g1, y2, g2, y3, g3, y4, g4, y5, g5, y6, g6, rfl⟩ := h4
            exact .global _ _ _ _ _ _ _ _ _ _ _ _ _ _ _ _ _ _ rfl ((dRec_iff ..).1 h1).2 ((dUint_iff ..).1 h2) (reads_sort.sound h3) ((dRec_iff ..).1 h5).2
              (reads_shape.sound g1) ((reads_list reads_var).sound g2) ((reads_list reads_var).sound g3) (reads_var.sound g4) (reads_sort.sound g5)
              (reads_term.sound g6)
          · cases h4
        · cases h
      · unfold dState at h
        split at h
        · rename_i h1
          simp only [Option.bind_eq_some_iff, Option.map_eq_some_iff] at h
          obtain ⟨x1, h2, x2, h3, x3, h4, rfl⟩ := h
          unfold dStateDef at h4
          split at h4
          · rename_i h5
            simp only [Option.bind_eq_some_iff, Option.map_eq_some_iff] at h4
            obtain ⟨y1, g1, y2, g2, rfl⟩ := h4
            exact .state _ _ _ _ _ _ _ _ _ _ _ rfl ((dRec_iff ..).1 h1).2 ((dUint_iff ..).1 h2) (reads_sort.sound h3) ((dRec_iff ..).1 h5).2
              ((reads_list reads_var).sound g1) (reads_term.sound g2)
          · cases h4
        · cases h
      · cases h
  complete := by
    intro n j a h hd
    cases h with
    | protocol v _ h1 h2 =>
      have := alt_depth h1
      cases h1
      have hn : ¬ n ≤ 1 := by omega
      have hn' : ¬ n - 1 ≤ v.depth := by omega
      have e : dUnit protOf (n - 1) v = some .protocol := by
        rcases h2 with h2 | h2
        · exact unit_of h2 rfl (by omega)
        · exact unit_of h2 rfl (by omega)
      simp only [dMac, hn, if_false, dGeneral, hn', e, Option.or]
    | structured v _ h1 h2 =>
      have := alt_depth h1
      cases h1
      have hn : ¬ n ≤ 1 := by omega
      have hn' : ¬ n - 1 ≤ v.depth := by omega
      have e : dUnit protOf (n - 1) v = none := by
        cases e : dUnit protOf (n - 1) v with
        | none => rfl
        | some o =>
          exfalso
          obtain ⟨k, h3, h4⟩ := unit_sound e
          obtain ⟨rfl, h5⟩ := (protOf_iff _ _).1 h3
          obtain ⟨x1, x2, x3, x4, x5, x6, y1, y2, y3, y4, y5, h6, _⟩ := h2
          rcases h6 with ⟨l, h7, h8⟩ | ⟨h7, _⟩
          · rcases h4 with h4 | h4
            · rw [h4] at h7; cases h7
            · rw [h4] at h7
              cases h7
              cases h8 with
              | cons g1 _ =>
                obtain ⟨pre, post, g2, _⟩ := g1
                have : ("name", x1) ∈ [(k, Json.null)] := by rw [g2]; simp
                simp only [List.mem_singleton, Prod.mk.injEq] at this
                rw [← this.1] at h5
                simp at h5
          · rcases h4 with h4 | h4 <;> rw [h4] at h7 <;> cases h7
      simp only [dMac, hn, if_false, dGeneral, hn', e, Option.or]
      exact struct_complete h2 (by omega)
    | global inputs indices ts body v ar t d k ty ac inp ix x y b ty' _ h1 h2 h3 h4 h5 h6 h7 h8 h9 h10 h11 =>
      have := alt_depth h1
      cases h1
      have d1 := fields_depth h2
      have d2 := fields_depth h5
      simp only [List.mem_cons, List.not_mem_nil, or_false, forall_eq_or_imp, forall_eq] at d1 d2
      have hn : ¬ n ≤ 1 := by omega
      simp only [dMac, hn, if_false, dGlobal, dGlobalData, rec_of h2 (show v.depth < n - 1 by omega), (dUint_iff ..).2 h3,
        reads_sort.complete h4 (show t.depth < n - 1 - 1 by omega), rec_of h5 (show d.depth < n - 1 - 1 by omega),
        reads_shape.complete (a := ()) h6 (show ac.depth < n - 1 - 1 - 1 by omega), (reads_list reads_var).complete h7 (show inp.depth < n - 1 - 1 - 1 by omega),
        (reads_list reads_var).complete h8 (show ix.depth < n - 1 - 1 - 1 by omega), reads_var.complete h9 (show x.depth < n - 1 - 1 - 1 by omega),
        reads_sort.complete h10 (show y.depth < n - 1 - 1 - 1 by omega), reads_term.complete h11 (show b.depth < n - 1 - 1 - 1 by omega),
        Option.bind_some, Option.map_some]
    | state sort vars v ar t i k x y t' _ h1 h2 h3 h4 h5 h6 h7 =>
      have := alt_depth h1
      cases h1
      have d1 := fields_depth h2
      have d2 := fields_depth h5
      simp only [List.mem_cons, List.not_mem_nil, or_false, forall_eq_or_imp, forall_eq] at d1 d2
      have hn : ¬ n ≤ 1 := by omega
      simp only [dMac, hn, if_false, dState, dStateDef, rec_of h2 (show v.depth < n - 1 by omega), (dUint_iff ..).2 h3,
        reads_sort.complete h4 (show t.depth < n - 1 - 1 by omega), rec_of h5 (show i.depth < n - 1 - 1 by omega),
        (reads_list reads_var).complete h6 (show x.depth < n - 1 - 1 - 1 by omega), reads_term.complete h7 (show y.depth < n - 1 - 1 - 1 by omega),
        Option.bind_some, Option.map_some]

theorem kindOf_iff (k : String) (q : SortKind) : kindOf k = some q ↔ k = kindName q := by
  constructor
  · intro h
    unfold kindOf at h
    split at h <;> cases h <;> rfl
  · rintro rfl
    cases q <;> rfl

theorem reads_kind : Reads (dUnit kindOf) fun k => UnitOf (kindName k) where
  sound := by
    intro n j a h
    obtain ⟨k, h1, h2⟩ := unit_sound h
    obtain rfl := (kindOf_iff _ _).1 h1
    exact h2
  complete := fun h hd => unit_of h ((kindOf_iff _ _).2 rfl) hd

/-! ### The file -/

theorem reads_dump : Reads dDump WDump where
  sound := by
    intro n j a h
    unfold dDump at h
    split at h
    · rename_i h1
      simp only [Option.bind_eq_some_iff, Option.map_eq_some_iff] at h
      obtain ⟨x1, h2, x2, h3, x3, h4, x4, h5, x5, h6, x6, h7, x7, h8, x8, h9, rfl⟩ := h
      exact ⟨_, _, _, _, _, _, _, _, ((dRec_iff ..).1 h1).2, reads_term.sound h2, (reads_list reads_term).sound h3, (reads_list reads_var).sound h4,
        (reads_list reads_act).sound h5, (reads_list (reads_content reads_funTy)).sound h6, (reads_list (reads_content reads_op)).sound h7,
        (reads_list (reads_content reads_mac)).sound h8, (reads_list (reads_content (reads_list reads_kind))).sound h9⟩
    · cases h
  complete := by
    rintro n j a ⟨x1, x2, x3, x4, x5, x6, x7, x8, h1, h2, h3, h4, h5, h6, h7, h8, h9⟩ hd
    have d1 := fields_depth h1
    simp only [List.mem_cons, List.not_mem_nil, or_false, forall_eq_or_imp, forall_eq] at d1
    simp only [dDump, rec_of h1 hd, reads_term.complete h2 (show x1.depth < n - 1 by omega),
      (reads_list reads_term).complete h3 (show x2.depth < n - 1 by omega), (reads_list reads_var).complete h4 (show x3.depth < n - 1 by omega),
      (reads_list reads_act).complete h5 (show x4.depth < n - 1 by omega), (reads_list (reads_content reads_funTy)).complete h6 (show x5.depth < n - 1 by omega),
      (reads_list (reads_content reads_op)).complete h7 (show x6.depth < n - 1 by omega),
      (reads_list (reads_content reads_mac)).complete h8 (show x7.depth < n - 1 by omega),
      (reads_list (reads_content (reads_list reads_kind))).complete h9 (show x8.depth < n - 1 by omega),
      Option.bind_some, Option.map_some]

theorem reads_call : Reads dCall WCall where
  sound := by
    intro n j a h
    unfold dCall at h
    split at h
    · rename_i h1
      simp only [Option.bind_eq_some_iff] at h
      obtain ⟨x1, h2, h3⟩ := h
      unfold dParams at h2
      split at h2
      · rename_i r t h4
        simp only [Option.bind_eq_some_iff] at h2
        obtain ⟨k, h5, h6⟩ := h2
        refine ⟨_, _, _, _, _, ((dRec_iff ..).1 h1).2, ((dRec_iff ..).1 h4).2, (dUint_iff ..).1 h5, ?_, reads_dump.sound h3⟩
        split at h6
        · exact .inl ⟨_, rfl⟩
        · exact .inr rfl
        · cases h6
      · cases h2
    · cases h
  complete := by
    rintro n j a ⟨p, c, x, y, k, h1, h2, h3, h4, h5⟩ hd
    have d1 := fields_depth h1
    simp only [List.mem_cons, List.not_mem_nil, or_false, forall_eq_or_imp, forall_eq] at d1
    have e : dParams (n - 1) p = some () := by
      simp only [dParams, rec_of h2 (show p.depth < n - 1 by omega), (dUint_iff ..).2 h3, Option.bind_some]
      rcases h4 with ⟨i, rfl⟩ | rfl <;> rfl
    simp only [dCall, rec_of h1 hd, e, reads_dump.complete h5 (show c.depth < n - 1 by omega), Option.bind_some]

end Sq
end CV
