import Verif.ExecProps
/-
Property C12: the memory-cell axioms.
-/
namespace CV
set_option linter.unusedSimpArgs false
variable {D : Type}
open SFm Fm

section
variable {M : Str Sym D} {points : List D} {undef first : D}

/-! ### Specification: replaying assignments -/

/-- At time `d` some assignment of `c` writes `v` at indices `ks`: for some values of the step's
parameters and of the fresh variables, `d` is that instance of the step, the arguments denote `ks`
and the content denotes `v`. -/
def Writes (M : Str Sym D) (c : Cell) (ρ : Valn D) (d : D) (ks : List D) (v : D) : Prop :=
  ∃ a ∈ c.assigns, ∃ ds, InDoms M (a.step.vars ++ a.fresh) ds ∧
    eval M (ρ.sets (a.step.vars ++ a.fresh) ds) a.step.formula = d ∧
    a.args.map (eval M (ρ.sets (a.step.vars ++ a.fresh) ds)) = ks ∧
    eval M (ρ.sets (a.step.vars ++ a.fresh) ds) a.content = v

/-- The contents at indices `ks` after the `i`-th point of the execution: what the last assignment to
these indices wrote, or `base` if there was none. -/
inductive Replay (W : D → List D → D → Prop) (points : List D) (base : D) (ks : List D) : Nat → D → Prop
  | write {i d v} : points[i]? = some d → W d ks v → Replay W points base ks i v
  | start {d} : points[0]? = some d → (∀ v, ¬ W d ks v) → Replay W points base ks 0 base
  | keep {i d v} : points[i + 1]? = some d → (∀ v, ¬ W d ks v) → Replay W points base ks i v →
      Replay W points base ks (i + 1) v

theorem Replay.total (W : D → List D → D → Prop) (points : List D) (base : D) (ks : List D) :
    ∀ i, i < points.length → ∃ v, Replay W points base ks i v := by
  intro i
  induction i with
  | zero =>
    intro h
    have hd : points[0]? = some points[0] := List.getElem?_eq_getElem h
    by_cases hw : ∃ v, W points[0] ks v
    · obtain ⟨v, hv⟩ := hw; exact ⟨v, .write hd hv⟩
    · exact ⟨base, .start hd (fun v hv => hw ⟨v, hv⟩)⟩
  | succ i ih =>
    intro h
    have hd : points[i + 1]? = some points[i + 1] := List.getElem?_eq_getElem h
    by_cases hw : ∃ v, W points[i + 1] ks v
    · obtain ⟨v, hv⟩ := hw; exact ⟨v, .write hd hv⟩
    · obtain ⟨v, hv⟩ := ih (by omega)
      exact ⟨v, .keep hd (fun v hv => hw ⟨v, hv⟩) hv⟩

/-! ### Well-formedness -/

/-- `m` is above all the numbers bound in the assignments; arguments and contents only mention the
step's parameters and the fresh variables, and there is one argument per index. -/
structure CellWF (m : Nat) (c : Cell) : Prop where
  low : ∀ a ∈ c.assigns, ∀ v ∈ a.step.vars ++ a.fresh, v.id < m
  args : ∀ a ∈ c.assigns, ∀ t ∈ a.args, ∀ v ∈ free t, v.id ∈ (a.step.vars ++ a.fresh).map Var.id
  content : ∀ a ∈ c.assigns, ∀ v ∈ free a.content, v.id ∈ (a.step.vars ++ a.fresh).map Var.id
  len : ∀ a ∈ c.assigns, a.args.length = c.args.length

/-- The bound variables of the cell axioms. -/
def cellVars (m : Nat) (c : Cell) : List Var := sortsToVariables (m + 1) c.args ++ [⟨m, .step⟩]

theorem sortsToVariables_ids (s : List Srt) (n : Nat) :
    (sortsToVariables n s).map Var.id = (List.range s.length).map (· + n) := by
  apply List.ext_getElem?
  intro i
  simp only [sortsToVariables, List.getElem?_map, List.getElem?_zipIdx, List.getElem?_range']
  by_cases h : i < s.length
  · simp [h, Nat.add_comm]
  · simp [h]

theorem sortsToVariables_nodup (s : List Srt) (n : Nat) : ((sortsToVariables n s).map Var.id).Nodup := by
  rw [sortsToVariables_ids]
  have : ∀ l : List Nat, l.Nodup → (l.map (· + n)).Nodup := by
    intro l
    induction l with
    | nil => simp
    | cons a l ih =>
      intro h
      rw [List.nodup_cons] at h
      simp only [List.map_cons, List.nodup_cons]
      refine ⟨?_, ih h.2⟩
      simp only [List.mem_map, not_exists, not_and]
      intro x hx he
      have : x = a := by omega
      exact h.1 (this ▸ hx)
  exact this _ List.nodup_range

theorem sortsToVariables_ge {s : List Srt} {n : Nat} {v : Var} (h : v ∈ sortsToVariables n s) :
    n ≤ v.id := by
  have := List.mem_map_of_mem (f := Var.id) h
  rw [sortsToVariables_ids] at this
  simp only [List.mem_map] at this
  obtain ⟨a, _, ha⟩ := this
  omega

theorem cellVars_nodup (m : Nat) (c : Cell) : ((cellVars m c).map Var.id).Nodup := by
  unfold cellVars
  rw [List.map_append, List.nodup_append]
  refine ⟨sortsToVariables_nodup _ _, by simp, ?_⟩
  intro a ha b hb
  simp only [List.map_cons, List.map_nil, List.mem_cons, List.not_mem_nil, or_false] at hb
  obtain ⟨v, hv, rfl⟩ := List.mem_map.1 ha
  have := sortsToVariables_ge hv
  omega

theorem InDoms.append {vs ws : List Var} : ∀ {as bs : List D}, InDoms M vs as → InDoms M ws bs →
    InDoms M (vs ++ ws) (as ++ bs) := by
  induction vs with
  | nil => intro as bs h1 h2; cases as with
    | nil => exact h2
    | cons a as => exact h1.elim
  | cons v vs ih => intro as bs h1 h2; cases as with
    | nil => exact h1.elim
    | cons a as => exact ⟨h1.1, ih h1.2 h2⟩

theorem InDoms.split {vs ws : List Var} : ∀ {ds : List D}, InDoms M (vs ++ ws) ds →
    ∃ as bs, ds = as ++ bs ∧ InDoms M vs as ∧ InDoms M ws bs := by
  induction vs with
  | nil => intro ds h; exact ⟨[], ds, rfl, trivial, h⟩
  | cons v vs ih => intro ds h; cases ds with
    | nil => exact h.elim
    | cons d ds =>
      obtain ⟨as, bs, rfl, h1, h2⟩ := ih h.2
      exact ⟨d :: as, bs, rfl, ⟨h.1, h1⟩, h2⟩

/-- Binding a block makes the valuation outside irrelevant for terms over the block. -/
theorem sets_agree (vs : List Var) : ∀ (ρ ρ' : Valn D) (ds : List D) (i : Nat),
    vs.length = ds.length → i ∈ vs.map Var.id → ρ.sets vs ds i = ρ'.sets vs ds i := by
  induction vs with
  | nil => intro ρ ρ' ds i _ hi; simp at hi
  | cons v vs ih =>
    intro ρ ρ' ds i hl hi
    cases ds with
    | nil => simp at hl
    | cons d ds =>
      simp only [Valn.sets]
      by_cases h : i ∈ vs.map Var.id
      · exact ih _ _ _ _ (by simpa using hl) h
      · rw [Valn.sets_notin _ _ _ _ h, Valn.sets_notin _ _ _ _ h]
        simp only [List.map_cons, List.mem_cons, h, or_false] at hi
        simp [Valn.set, hi]

theorem cell_read (m : Nat) (c : Cell) (ρ : Valn D) (ks : List D) (d : D)
    (hk : ks.length = c.args.length) :
    (sortsToVariables (m + 1) c.args).map (fun v => ρ.sets (cellVars m c) (ks ++ [d]) v.id) = ks ∧
    ρ.sets (cellVars m c) (ks ++ [d]) m = d := by
  have hl : (cellVars m c).length = (ks ++ [d]).length := by
    simp [cellVars, sortsToVariables, hk]
  have := Valn.sets_map (cellVars m c) ρ (ks ++ [d]) (cellVars_nodup m c) hl
  conv at this => lhs; arg 2; unfold cellVars
  rw [List.map_append] at this
  have := List.append_inj' this (by simp)
  exact ⟨this.1, by simpa using this.2⟩

/-- The matching condition of an assignment, evaluated. -/
theorem assignMatch_iff (hL : Logic M) {m : Nat} {c : Cell} (hwf : CellWF m c) (a : Assign)
    (ha : a ∈ c.assigns) (ρ : Valn D) (ks : List D) (d : D) (hk : ks.length = c.args.length)
    (ds : List D) (hds : InDoms M (a.step.vars ++ a.fresh) ds) :
    let ρ2 := (ρ.sets (cellVars m c) (ks ++ [d])).sets (a.step.vars ++ a.fresh) ds
    let ρ3 := ρ.sets (a.step.vars ++ a.fresh) ds
    (holds M ρ2 (assignMatch ⟨m, .step⟩ (sortsToVariables (m + 1) c.args) a) ↔
      eval M ρ3 a.step.formula = d ∧ a.args.map (eval M ρ3) = ks) ∧
    eval M ρ2 a.content = eval M ρ3 a.content ∧
    (∀ i, m ≤ i → ρ2 i = ρ.sets (cellVars m c) (ks ++ [d]) i) := by
  intro ρ2 ρ3
  have hhigh : ∀ i, m ≤ i → ρ2 i = ρ.sets (cellVars m c) (ks ++ [d]) i := by
    intro i hi
    apply Valn.sets_notin
    intro hm
    obtain ⟨v, hv, rfl⟩ := List.mem_map.1 hm
    have := hwf.low a ha v hv
    omega
  have hlow : ∀ i, i ∈ (a.step.vars ++ a.fresh).map Var.id → ρ2 i = ρ3 i :=
    fun i hi => sets_agree _ _ _ _ _ hds.length hi
  have hargs : ∀ t ∈ a.args, eval M ρ2 t = eval M ρ3 t := fun t ht =>
    eval_agree M t ρ2 ρ3 (fun v hv => hlow v.id (hwf.args a ha t ht v hv))
  have hcont : eval M ρ2 a.content = eval M ρ3 a.content :=
    eval_agree M _ ρ2 ρ3 (fun v hv => hlow v.id (hwf.content a ha v hv))
  have hstep : eval M ρ2 a.step.formula = eval M ρ3 a.step.formula := by
    simp only [Step.formula, eval_app_vars]
    congr 1
    apply List.map_congr_left
    intro v hv
    exact hlow v.id (List.mem_map_of_mem (List.mem_append_left _ hv))
  obtain ⟨hr1, hr2⟩ := cell_read m c ρ ks d hk
  refine ⟨?_, hcont, hhigh⟩
  have hread : (sortsToVariables (m + 1) c.args).map (fun v => ρ2 v.id) = ks := by
    rw [← hr1]
    apply List.map_congr_left
    intro v hv
    apply hhigh
    have := sortsToVariables_ge hv
    omega
  have hlen := hwf.len a ha
  unfold assignMatch
  rw [hL.holds_ands]
  constructor
  · intro H
    refine ⟨?_, ?_⟩
    · have := H (meq (.var ⟨m, .step⟩) a.step.formula) (by simp)
      rw [hL.holds_meq] at this
      simp only [eval] at this
      rw [hhigh m (Nat.le_refl _), hr2] at this
      rw [← hstep, ← this]
    · apply List.ext_getElem?
      intro k
      by_cases hk' : k < a.args.length
      · have hk2 : k < (sortsToVariables (m + 1) c.args).length := by
          simp [sortsToVariables]; omega
        have e1 : a.args[k]? = some a.args[k] := List.getElem?_eq_getElem hk'
        have e2 := List.getElem?_eq_getElem hk2
        have hm : ((sortsToVariables (m + 1) c.args)[k], a.args[k]) ∈
            (sortsToVariables (m + 1) c.args).zip a.args :=
          List.mem_iff_getElem?.2 ⟨k, by rw [List.getElem?_zip_eq_some]; exact ⟨e2, e1⟩⟩
        have := H _ (List.mem_append_left _ (List.mem_map.2 ⟨_, hm, rfl⟩))
        rw [hL.holds_meq] at this
        simp only [eval] at this
        rw [← hread, List.getElem?_map, List.getElem?_map, e1, e2]
        simp only [Option.map_some]
        rw [this, hargs _ (List.getElem_mem hk')]
      · rw [List.getElem?_eq_none (by simp; omega), List.getElem?_eq_none (by omega)]
  · rintro ⟨h1, h2⟩ f hf
    rw [List.mem_append] at hf
    rcases hf with hf | hf
    · obtain ⟨⟨v, t⟩, hvt, rfl⟩ := List.mem_map.1 hf
      rw [hL.holds_meq]
      obtain ⟨k, hk'⟩ := List.mem_iff_getElem?.1 hvt
      rw [List.getElem?_zip_eq_some] at hk'
      have r1 := congrArg (·[k]?) hread
      have r2 := congrArg (·[k]?) h2
      simp only [List.getElem?_map, hk'.1, hk'.2, Option.map_some] at r1 r2
      have := Option.some.inj (r1.trans r2.symm)
      simp only [eval]
      rw [this, hargs t (List.mem_iff_getElem?.2 ⟨k, hk'.2⟩)]
    · simp only [List.mem_cons, List.not_mem_nil, or_false] at hf
      subst hf
      rw [hL.holds_meq]
      simp only [eval]
      rw [hhigh m (Nat.le_refl _), hr2, hstep, h1]

/-- The quantifier-free parts of the cell axioms: the "unchanged" one and one per assignment. -/
def cellBodies (m : Nat) (c : Cell) : List SFm :=
  let stepVar : Var := ⟨m, .step⟩
  let vars := sortsToVariables (m + 1) c.args
  let call : SFm := .app (.cell c.fid) ((cellVars m c).map .var)
  let callPrev : SFm := .app (.cell c.fid) (vars.map .var ++ [pred (.var stepVar)])
  imp (ands (c.assigns.map fun a =>
      Fm.mkForall (a.step.vars ++ a.fresh) (mnot (assignMatch stepVar vars a))))
    (meq (evalM call) (evalM callPrev)) ::
  c.assigns.map fun a =>
    Fm.mkForall (a.step.vars ++ a.fresh) (imp (assignMatch stepVar vars a) (meq call a.content))

theorem cellAxioms_eq (m : Nat) (c : Cell) :
    cellAxioms m c = (cellBodies m c).map (Fm.mkForall (cellVars m c)) := by
  simp [cellAxioms, cellBodies, cellVars, List.map_map, Function.comp_def]

/-- What the cell axioms say at indices `ks` and time `d`. -/
theorem cellBodies_iff (hL : Logic M) {m : Nat} {c : Cell} (hwf : CellWF m c) (ρ : Valn D)
    (ks : List D) (d : D) (hk : ks.length = c.args.length) :
    (∀ f ∈ cellBodies m c, holds M (ρ.sets (cellVars m c) (ks ++ [d])) f) ↔
      (∀ v, Writes M c ρ d ks v → M.fn (.cell c.fid) (ks ++ [d]) = v) ∧
      ((∀ v, ¬ Writes M c ρ d ks v) →
        M.fn .evalMsg [M.fn (.cell c.fid) (ks ++ [d])] =
        M.fn .evalMsg [M.fn (.cell c.fid) (ks ++ [M.fn .pred [d]])]) := by
  obtain ⟨hr1, hr2⟩ := cell_read m c ρ ks d hk
  have hcall : ∀ ρ' : Valn D, (∀ i, m ≤ i → ρ' i = ρ.sets (cellVars m c) (ks ++ [d]) i) →
      eval M ρ' (.app (.cell c.fid) ((cellVars m c).map .var)) = M.fn (.cell c.fid) (ks ++ [d]) ∧
      eval M ρ' (.app (.cell c.fid) ((sortsToVariables (m + 1) c.args).map .var ++
        [pred (.var ⟨m, .step⟩)])) = M.fn (.cell c.fid) (ks ++ [M.fn .pred [d]]) := by
    intro ρ' h
    have hv : (sortsToVariables (m + 1) c.args).map (fun v => ρ' v.id) = ks := by
      rw [← hr1]
      apply List.map_congr_left
      intro v hv
      apply h
      have := sortsToVariables_ge hv
      omega
    have hm : ρ' m = d := by rw [h m (Nat.le_refl _), hr2]
    constructor
    · rw [eval_app_vars]
      unfold cellVars
      rw [List.map_append, hv]
      simp [hm]
    · simp only [eval, evals_eq, List.map_append, List.map_map, Function.comp_def, List.map_cons,
        List.map_nil, SFm.pred, evals, hv, hm]
  have hneg : holds M (ρ.sets (cellVars m c) (ks ++ [d]))
      (ands (c.assigns.map fun a => Fm.mkForall (a.step.vars ++ a.fresh)
        (mnot (assignMatch ⟨m, .step⟩ (sortsToVariables (m + 1) c.args) a)))) ↔
      (∀ v, ¬ Writes M c ρ d ks v) := by
    rw [hL.holds_ands]
    simp only [List.mem_map, forall_exists_index, and_imp, forall_apply_eq_imp_iff₂, holds_forall,
      quantVal_all, hL.holds_not]
    constructor
    · rintro H v ⟨a, ha, ds, hds, h1, h2, _⟩
      exact H a ha ds hds ((assignMatch_iff hL hwf a ha ρ ks d hk ds hds).1.2 ⟨h1, h2⟩)
    · intro H a ha ds hds hm
      obtain ⟨h1, h2⟩ := (assignMatch_iff hL hwf a ha ρ ks d hk ds hds).1.1 hm
      exact H _ ⟨a, ha, ds, hds, h1, h2, rfl⟩
  simp only [cellBodies, List.mem_cons, forall_eq_or_imp, List.mem_map, forall_exists_index, and_imp,
    forall_apply_eq_imp_iff₂, hL.holds_imp, hneg, hL.holds_meq, holds_forall, quantVal_all]
  obtain ⟨hc1, hc2⟩ := hcall _ (fun i _ => rfl)
  rw [and_comm]
  refine and_congr ?_ ?_
  · constructor
    · rintro H v ⟨a, ha, ds, hds, h1, h2, h3⟩
      obtain ⟨hm, hc, hh⟩ := assignMatch_iff hL hwf a ha ρ ks d hk ds hds
      have := H a ha ds hds (hm.2 ⟨h1, h2⟩)
      rw [(hcall _ hh).1, hc, h3] at this
      exact this
    · intro H a ha ds hds hmm
      obtain ⟨hm, hc, hh⟩ := assignMatch_iff hL hwf a ha ρ ks d hk ds hds
      obtain ⟨h1, h2⟩ := hm.1 hmm
      rw [(hcall _ hh).1, hc]
      exact H _ ⟨a, ha, ds, hds, h1, h2, rfl⟩
  · refine imp_congr Iff.rfl ?_
    simp only [SFm.evalM, eval, evals] at hc1 hc2 ⊢
    rw [hc1, hc2]

theorem cellVars_doms {m : Nat} {c : Cell} {ks : List D} {d : D}
    (hk : InDoms M (sortsToVariables (m + 1) c.args) ks) (hd : M.dom .step d) :
    InDoms M (cellVars m c) (ks ++ [d]) := InDoms.append hk ⟨hd, trivial⟩

/-- Value tuples for the indices of a cell. -/
def CellIdx (M : Str Sym D) (c : Cell) (ks : List D) : Prop :=
  InDoms M (sortsToVariables 0 c.args) ks

theorem sorts_doms (s : List Srt) : ∀ (n n' : Nat) (ks : List D),
    InDoms M (sortsToVariables n s) ks → InDoms M (sortsToVariables n' s) ks := by
  have key : ∀ (s : List Srt) (n : Nat) (ks : List D),
      InDoms M (sortsToVariables n s) ks ↔ (s.length = ks.length ∧
        ∀ p ∈ s.zip ks, M.dom p.1 p.2) := by
    have : ∀ (vs : List Var) (ks : List D), InDoms M vs ks ↔ (vs.length = ks.length ∧
        ∀ p ∈ (vs.map Var.sort).zip ks, M.dom p.1 p.2) := by
      intro vs
      induction vs with
      | nil => intro ks; cases ks <;> simp [InDoms]
      | cons v vs ih => intro ks; cases ks with
        | nil => simp [InDoms]
        | cons k ks =>
          simp only [InDoms, ih, List.length_cons, Nat.add_right_cancel_iff, List.map_cons,
            List.zip_cons_cons, List.mem_cons, forall_eq_or_imp]
          constructor
          · rintro ⟨a, b, c⟩; exact ⟨b, a, c⟩
          · rintro ⟨b, a, c⟩; exact ⟨a, b, c⟩
    intro s n ks
    rw [this]
    have hs : (sortsToVariables n s).map Var.sort = s := by
      apply List.ext_getElem?
      intro i
      simp only [sortsToVariables, List.getElem?_map, List.getElem?_zipIdx, List.getElem?_range']
      by_cases h : i < s.length
      · simp [h]
      · simp [h]
    have hl : (sortsToVariables n s).length = s.length := by simp [sortsToVariables]
    rw [hs, hl]
  intro n n' ks h
  exact (key s n' ks).2 ((key s n ks).1 h)

theorem CellIdx.length {c : Cell} {ks : List D} (h : CellIdx M c ks) : ks.length = c.args.length := by
  have := InDoms.length h
  simp [sortsToVariables] at this
  omega

/-- **C12, the axioms determine the contents.** Any interpretation of a cell satisfying the emitted
axioms agrees (after evaluation), at every time point of the execution and every index tuple, with
the replay of the assignments. -/
theorem C12_determined (hL : Logic M) (h : IsTrace M points undef first) {m : Nat} {c : Cell}
    (hwf : CellWF m c) (ρ : Valn D) (hax : ∀ ax ∈ cellAxioms m c, holds M ρ ax)
    (ks : List D) (hks : CellIdx M c ks) (i : Nat) (d v : D) (hd : points[i]? = some d)
    (hv : Replay (Writes M c ρ) points (M.fn (.cell c.fid) (ks ++ [undef])) ks i v) :
    M.fn .evalMsg [M.fn (.cell c.fid) (ks ++ [d])] = M.fn .evalMsg [v] := by
  have hbody : ∀ d, M.dom .step d → (∀ f ∈ cellBodies m c,
      holds M (ρ.sets (cellVars m c) (ks ++ [d])) f) := by
    intro d hd f hf
    have := hax (Fm.mkForall (cellVars m c) f) (by rw [cellAxioms_eq]; exact List.mem_map_of_mem hf)
    rw [holds_forall, quantVal_all] at this
    exact this _ (cellVars_doms (sorts_doms _ _ _ _ hks) hd)
  have hmean := fun d hd => (cellBodies_iff hL hwf ρ ks d hks.length).1 (hbody d hd)
  have hdom : ∀ {j e}, points[j]? = some e → M.dom .step e := fun he =>
    (h.dom_step _).2 (Or.inl (IsTrace.mem_of_idx he))
  induction hv generalizing d with
  | write hd' hw =>
    have hde := Option.some.inj (hd.symm.trans hd'); subst hde
    rw [(hmean d (hdom hd)).1 _ hw]
  | start hd' hw =>
    have hde := Option.some.inj (hd.symm.trans hd'); subst hde
    rw [(hmean d (hdom hd)).2 hw]
    have : d = first := by rw [h.head] at hd; exact (Option.some.inj hd).symm
    rw [this, h.pred_first]
  | @keep i e v hd' hw _ ih =>
    have hde := Option.some.inj (hd.symm.trans hd'); subst hde
    rw [(hmean d (hdom hd)).2 hw]
    obtain ⟨hlt, _⟩ := List.getElem?_eq_some_iff.1 hd
    have hpi : points[i]? = some points[i] := List.getElem?_eq_getElem (by omega)
    rw [h.pred_succ i _ _ hpi hd]
    exact ih _ hpi

/-- **C12, partial soundness.** If the cell is interpreted by the replay at the happening time
points, then every emitted cell axiom holds for every index tuple and every *happening* time point.
Missing: the axioms are also asserted for the undefined time point, see
`C12_undefined_counterexample`. -/
theorem C12_replay_partial (hL : Logic M) (h : IsTrace M points undef first) {m : Nat} {c : Cell}
    (hwf : CellWF m c) (ρ : Valn D)
    (hcell : ∀ ks, CellIdx M c ks → ∀ (i : Nat) (d v : D), points[i]? = some d →
      Replay (Writes M c ρ) points (M.fn (.cell c.fid) (ks ++ [undef])) ks i v →
      M.fn (.cell c.fid) (ks ++ [d]) = v) :
    ∀ ax ∈ cellAxioms m c, ∃ body, ax = Fm.mkForall (cellVars m c) body ∧
      ∀ ks d, CellIdx M c ks → d ∈ points → holds M (ρ.sets (cellVars m c) (ks ++ [d])) body := by
  intro ax hax
  rw [cellAxioms_eq] at hax
  obtain ⟨body, hb, rfl⟩ := List.mem_map.1 hax
  refine ⟨body, rfl, ?_⟩
  intro ks d hks hd
  refine (cellBodies_iff hL hwf ρ ks d hks.length).2 ⟨?_, ?_⟩ body hb
  · intro v hw
    obtain ⟨i, hi⟩ := IsTrace.idx_of_mem hd
    exact hcell ks hks i d v hi (.write hi hw)
  · intro hw
    obtain ⟨i, hi⟩ := IsTrace.idx_of_mem hd
    cases i with
    | zero =>
      have : d = first := by rw [h.head] at hi; exact (Option.some.inj hi).symm
      rw [hcell ks hks 0 d _ hi (.start hi hw), this, h.pred_first]
    | succ i =>
      obtain ⟨hlt, _⟩ := List.getElem?_eq_some_iff.1 hi
      have hpi : points[i]? = some points[i] := List.getElem?_eq_getElem (by omega)
      obtain ⟨v, hv⟩ := Replay.total (Writes M c ρ) points (M.fn (.cell c.fid) (ks ++ [undef])) ks i
        (by omega)
      rw [h.pred_succ i _ _ hpi hi, hcell ks hks _ d v hi (.keep hi hw hv),
        hcell ks hks _ _ v hpi hv]

end

/-- **C12, numbering.** If every parameter of every step occurs in its message or condition, the time
variable chosen for the cell axioms is above all variables bound in the assignments. -/
theorem C12_numbering (p : Protocol) (c : Cell) (hc : c ∈ p.cells)
    (hst : ∀ a ∈ c.assigns, a.step ∈ p.steps)
    (hocc : ∀ s ∈ p.steps, ∀ v ∈ s.vars, v.id ∈ (s.usedVars).map Var.id) :
    ∀ a ∈ c.assigns, ∀ v ∈ a.step.vars ++ a.fresh, v.id < p.maxVar := by
  have key : ∀ i, i ∈ ((p.steps.flatMap Step.usedVars ++
      p.cells.flatMap (fun c => c.assigns.flatMap Assign.fresh)).map Var.id) → i < p.maxVar := by
    intro i hi
    unfold Protocol.maxVar
    have := le_max? _ i hi 0
    omega
  intro a ha v hv
  apply key
  rcases List.mem_append.1 hv with hv | hv
  · obtain ⟨w, hw, he⟩ := List.mem_map.1 (hocc _ (hst a ha) v hv)
    rw [← he]
    exact List.mem_map_of_mem (List.mem_append_left _ (List.mem_flatMap.2 ⟨_, hst a ha, hw⟩))
  · exact List.mem_map_of_mem (List.mem_append_right _ (List.mem_flatMap.2 ⟨c, hc,
      List.mem_flatMap.2 ⟨a, ha, hv⟩⟩))

/-! ### Examples and counterexamples -/

def cxInit : Step := ⟨0, "init", [], SFm.tru, .app (.user 9) []⟩
def cxA : Step := ⟨1, "A", [], SFm.tru, .app (.user 9) []⟩
def cxB : Step := ⟨2, "B", [], SFm.tru, .app (.user 9) []⟩
/-- A cell written only by `A`. -/
def cxCell1 : Cell := ⟨0, [], [⟨cxA, [], .app (.user 0) [], []⟩]⟩
/-- A cell to which `A` writes one constant and `B` another. -/
def cxCell2 : Cell := ⟨0, [], [⟨cxA, [], .app (.user 0) [], []⟩, ⟨cxB, [], .app (.user 1) [], []⟩]⟩
def cxProto1 : Protocol := ⟨[cxInit, cxA], [cxCell1], []⟩
def cxProto2 : Protocol := ⟨[cxInit, cxA, cxB], [cxCell2], []⟩

theorem cxSeq1 : ActSeq cxProto1 (0, []) [(1, [])] where
  nodup := by decide
  fids := by simp [cxProto1, cxInit, cxA]
  index := by simp [cxProto1, cxInit, cxA]
  init := by
    intro i hi
    simp [cxProto1, Protocol.init] at hi
    subst hi; exact ⟨rfl, rfl⟩
  inst := by simp [cxProto1, cxInit, cxA]

theorem cxSeq2 : ActSeq cxProto2 (0, []) [] where
  nodup := by decide
  fids := by simp [cxProto2, cxInit, cxA, cxB]
  index := by simp [cxProto2, cxInit, cxA, cxB]
  init := by
    intro i hi
    simp [cxProto2, Protocol.init] at hi
    subst hi; exact ⟨rfl, rfl⟩
  inst := by simp [cxProto2, cxInit, cxA, cxB]

open Classical in
/-- The cell holds 5 at `A` and 0 elsewhere. -/
noncomputable def cxRest : Sym → List V → V
  | .user 0, _ => .msg 5
  | .cell 0, [d] => if d = V.pt 1 [] then .msg 5 else .msg 0
  | .evalMsg, [d] => d
  | _, _ => .undef

theorem cxWF1 : CellWF cxProto1.maxVar cxCell1 where
  low := by simp [cxCell1, cxA]
  args := by simp [cxCell1]
  content := by simp [cxCell1, free, freeIn, freeIns]
  len := by simp [cxCell1]

/-- C12 non-vacuity: in the run init, A all cell axioms hold, so `C12_determined` applies and the
contents at `A` are the 5 that was written. -/
example (ρ : Valn V) : (stdStr ((0, []) :: [(1, [])]) cxRest).fn .evalMsg
    [(stdStr ((0, []) :: [(1, [])]) cxRest).fn (.cell 0) [V.pt 1 []]] = .msg 5 := by
  have hw : ∀ d v, Writes (stdStr ((0, []) :: [(1, [])]) cxRest) cxCell1 ρ d [] v ↔
      (d = V.pt 1 [] ∧ v = .msg 5) := by
    intro d v
    constructor
    · rintro ⟨a, ha, ds, hds, h1, _, h3⟩
      simp only [cxCell1, List.mem_cons, List.not_mem_nil, or_false] at ha
      subst ha
      exact ⟨h1.symm, h3.symm⟩
    · rintro ⟨rfl, rfl⟩
      exact ⟨_, List.mem_cons_self, [], trivial, rfl, rfl, rfl⟩
  refine C12_determined (stdStr_logic _ _) (stdStr_run cxSeq1 cxRest).toIsTrace cxWF1 ρ ?_ [] trivial
    1 (V.pt 1 []) (.msg 5) rfl (.write rfl ((hw _ _).2 ⟨rfl, rfl⟩))
  intro ax hax
  rw [cellAxioms_eq] at hax
  obtain ⟨body, hb, rfl⟩ := List.mem_map.1 hax
  rw [holds_forall, quantVal_all]
  intro ds hds
  match ds, hds with
  | [d], ⟨hd, _⟩ =>
    refine (cellBodies_iff (stdStr_logic _ _) cxWF1 ρ [] d rfl).2 ⟨?_, ?_⟩ body hb
    · intro v hv
      obtain ⟨rfl, rfl⟩ := (hw d v).1 hv
      show cxRest (.cell 0) [V.pt 1 []] = _
      simp [cxRest]
    · intro hn
      have hne : d ≠ V.pt 1 [] := fun h => hn _ ((hw _ _).2 ⟨h, rfl⟩)
      show cxRest (.cell 0) [d] = cxRest (.cell 0) [V.predIn _ d]
      simp only [cxRest, if_neg hne]
      rw [if_neg]
      intro hp
      simp only [List.map_cons, List.map_nil, V.predIn, V.ofAct] at hp
      split at hp <;> simp at hp

/-- **C12 counterexample (undefined time point).** The axioms are asserted without requiring the time
point to happen. If `A` writes `a` and `B` writes `b ≠ a`, then in the execution where neither
happens, *no* contents of the cell satisfy the emitted axioms. -/
theorem C12_undefined_counterexample (rest : Sym → List V → V)
    (hab : rest (.user 0) [] ≠ rest (.user 1) []) :
    IsRun (stdStr [(0, [])] rest) cxProto2 ([(0, [])].map V.ofAct) .undef (V.ofAct (0, [])) ∧
    ∀ ρ, ¬ ∀ ax ∈ cellGenerate cxProto2, holds (stdStr [(0, [])] rest) ρ ax := by
  refine ⟨stdStr_run cxSeq2 rest, ?_⟩
  intro ρ H
  have hwf : CellWF cxProto2.maxVar cxCell2 := by
    constructor <;> simp [cxCell2, cxA, cxB, free, freeIn, freeIns]
  have hb : ∀ f ∈ cellBodies cxProto2.maxVar cxCell2,
      holds (stdStr [(0, [])] rest) (ρ.sets (cellVars cxProto2.maxVar cxCell2) ([] ++ [.undef])) f := by
    intro f hf
    have := H (Fm.mkForall (cellVars cxProto2.maxVar cxCell2) f) (by
      unfold cellGenerate
      rw [List.mem_flatMap]
      exact ⟨cxCell2, by simp [cxProto2], by rw [cellAxioms_eq]; exact List.mem_map_of_mem hf⟩)
    rw [holds_forall, quantVal_all] at this
    exact this _ ⟨Or.inr rfl, trivial⟩
  have hm := (cellBodies_iff (stdStr_logic _ _) hwf ρ [] .undef rfl).1 hb
  have h1 := hm.1 (rest (.user 0) []) ⟨_, List.mem_cons_self, [], trivial, rfl, rfl, rfl⟩
  have h2 := hm.1 (rest (.user 1) []) ⟨_, List.mem_cons_of_mem _ List.mem_cons_self, [], trivial, rfl,
    rfl, rfl⟩
  exact hab (h1.symm.trans h2)

/-- A step with two parameters that occur in neither its message nor its condition. -/
def ccA : Step := ⟨1, "A", [⟨0, .index⟩, ⟨1, .index⟩], SFm.tru, .app (.user 9) []⟩
def ccCell : Cell := ⟨0, [], [⟨ccA, [], .app (.user 0) [], []⟩]⟩
def ccProto : Protocol := ⟨[cxInit, ccA], [ccCell], []⟩

theorem ccSeq : ActSeq ccProto (0, []) [(1, [0, 1])] where
  nodup := by decide
  fids := by simp [ccProto, cxInit, ccA]
  index := by simp [ccProto, cxInit, ccA]
  init := by
    intro i hi
    simp [ccProto, Protocol.init] at hi
    subst hi; exact ⟨rfl, rfl⟩
  inst := by simp [ccProto, cxInit, ccA]

/-- **C12 counterexample (variable clash).** The time variable of the cell axioms is numbered from
the variables *occurring* in messages and conditions, so it can coincide with a step parameter and be
captured. For the step `A(i,j)` above, which writes the cell, the emitted axioms force the contents
at `A(0,1)` to be those at init. -/
theorem C12_clash_counterexample (rest : Sym → List V → V) (ρ : Valn V)
    (H : ∀ ax ∈ cellGenerate ccProto, holds (stdStr ((0, []) :: [(1, [0, 1])]) rest) ρ ax) :
    Writes (stdStr ((0, []) :: [(1, [0, 1])]) rest) ccCell ρ (V.pt 1 [0, 1]) [] (rest (.user 0) []) ∧
    rest .evalMsg [rest (.cell 0) [V.pt 1 [0, 1]]] = rest .evalMsg [rest (.cell 0) [V.pt 0 []]] := by
  have hL : Logic (stdStr ((0, []) :: [(1, [0, 1])]) rest) := stdStr_logic _ _
  constructor
  · exact ⟨_, List.mem_cons_self, [.idx 0, .idx 1], ⟨⟨0, rfl⟩, ⟨1, rfl⟩, trivial⟩, rfl, rfl, rfl⟩
  · have h0 := H _ (List.mem_flatMap.2 ⟨ccCell, by simp [ccProto], by
      rw [cellAxioms_eq]; exact List.mem_cons_self⟩)
    rw [holds_forall, quantVal_all] at h0
    have h1 := h0 [V.pt 1 [0, 1]] ⟨Or.inl (by simp [V.ofAct]), trivial⟩
    rw [hL.holds_imp] at h1
    have h2 := h1 (by
      rw [hL.holds_ands]
      intro f hf
      simp only [ccCell, List.map_cons, List.map_nil, List.mem_cons, List.not_mem_nil, or_false] at hf
      subst hf
      rw [holds_forall, quantVal_all]
      intro ds hds
      match ds, hds with
      | [_, _], ⟨⟨a, rfl⟩, ⟨b, rfl⟩, _⟩ =>
        rw [hL.holds_not, assignMatch, hL.holds_ands]
        intro hh
        have := hh _ (List.mem_append_right _ List.mem_cons_self)
        rw [hL.holds_meq] at this
        simp only [Step.formula, eval_app_vars, stdStr_step, eval] at this
        split at this <;>
          simp [ccA, ccProto, Protocol.maxVar, Step.usedVars, vars, varss, cxInit, SFm.tru,
            ccCell, Valn.sets, Valn.set] at this)
    rw [hL.holds_meq] at h2
    have hp : V.predIn ((((0, []) :: [(1, [0, 1])]) : List (Nat × List Nat)).map V.ofAct) (V.pt 1 [0, 1]) =
        V.pt 0 [] := by simp [V.predIn, V.ofAct]
    have h3 : rest .evalMsg [rest (.cell 0) [V.pt 1 [0, 1]]] = rest .evalMsg [rest (.cell 0)
      [V.predIn ((((0, []) :: [(1, [0, 1])]) : List (Nat × List Nat)).map V.ofAct) (V.pt 1 [0, 1])]] := h2
    rw [hp] at h3
    exact h3

end CV
