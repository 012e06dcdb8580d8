/-
The orderings extracted from a Squirrel protocol (C38) and the output locations (C39).
-/
import Verif.SqOrder
import Verif.SquirrelProps
import Mathlib.Data.List.Nodup

set_option linter.unusedSimpArgs false

namespace CV
namespace Sq

variable {A : Type} [DecidableEq A]

/-! ### `depends` is the strict prefix order -/

theorem zip_all_prefix : ∀ a b : AT A, ((a.zip b).all fun p => decide (p.1 = p.2)) = true ↔ (a <+: b ∨ b <+: a)
  | [], b => by simp
  | x :: a, [] => by simp
  | x :: a, y :: b => by
    have := zip_all_prefix a b
    simp only [List.zip_cons_cons, List.all_cons, Bool.and_eq_true, decide_eq_true_eq, this,
      List.cons_prefix_cons]
    constructor
    · rintro ⟨rfl, h | h⟩
      · exact Or.inl ⟨rfl, h⟩
      · exact Or.inr ⟨rfl, h⟩
    · rintro (⟨rfl, h⟩ | ⟨rfl, h⟩)
      · exact ⟨rfl, Or.inl h⟩
      · exact ⟨rfl, Or.inr h⟩

/-- `depends` decides the strict prefix relation, both ways. -/
theorem C38_depends_iff (a b : AT A) :
    (depends a b = some true ↔ (a <+: b ∧ a ≠ b)) ∧ (depends a b = some false ↔ (b <+: a ∧ b ≠ a)) ∧
    (depends a b = none ↔ (a = b ∨ (¬ a <+: b ∧ ¬ b <+: a))) := by
  by_cases he : a = b
  · subst he; simp [depends, partialCmp]
  · by_cases hz : ((a.zip b).all fun p => decide (p.1 = p.2)) = true
    · have hp := (zip_all_prefix a b).1 hz
      by_cases hl : a.length < b.length
      · have h1 : a <+: b := by
          rcases hp with h | h
          · exact h
          · exact absurd h.length_le (by omega)
        have h2 : ¬ b <+: a := fun h => absurd h.length_le (by omega)
        simp [depends, partialCmp, he, hz, hl, h1, h2]
      · have h1 : ¬ a <+: b := by
          intro h
          exact he (h.eq_of_length (by have := h.length_le; omega))
        have h2 : b <+: a := hp.resolve_left h1
        simp [depends, partialCmp, he, hz, hl, h1, h2, Ne.symm he]
    · have hp := fun h => hz ((zip_all_prefix a b).2 h)
      have h1 : ¬ a <+: b := fun h => hp (Or.inl h)
      have h2 : ¬ b <+: a := fun h => hp (Or.inr h)
      simp [depends, partialCmp, he, hz, h1, h2]

/-- Dependency is a strict partial order: irreflexive, asymmetric, transitive. -/
theorem C38_strict_order :
    (∀ a : AT A, depends a a = none) ∧
    (∀ a b : AT A, depends a b = some true ↔ depends b a = some false) ∧
    (∀ a b : AT A, ¬ (depends a b = some true ∧ depends b a = some true)) ∧
    (∀ a b c : AT A, depends a b = some true → depends b c = some true → depends a c = some true) := by
  refine ⟨fun a => by simp [depends, partialCmp], fun a b => ?_, fun a b h => ?_, fun a b c h1 h2 => ?_⟩
  · rw [(C38_depends_iff a b).1, (C38_depends_iff b a).2.1]
  · obtain ⟨h1, hne⟩ := (C38_depends_iff a b).1.1 h.1
    obtain ⟨h2, _⟩ := (C38_depends_iff b a).1.1 h.2
    exact hne (h1.eq_of_length (Nat.le_antisymm h1.length_le h2.length_le))
  · obtain ⟨h1, hne⟩ := (C38_depends_iff a b).1.1 h1
    obtain ⟨h2, hne2⟩ := (C38_depends_iff b c).1.1 h2
    refine (C38_depends_iff a c).1.2 ⟨h1.trans h2, ?_⟩
    intro e; subst e
    exact hne (h1.eq_of_length (Nat.le_antisymm h1.length_le h2.length_le))

/-! ### Mutual exclusion -/

/-- The number of index variables of a path of control points. -/
def width (p : AT Nat) : Nat := (p.map fun x => x.par.2 + x.sum.2).sum

/-- Two control paths are mutually exclusive when, after a common part, they take different branches of
the same choice; the variables they have in common are those before the choice. -/
theorem C38_mutex_iff (a b : AT Nat) (n : Nat) :
    mutexVars a b = some n ↔ ∃ p x y a' b', a = p ++ x :: a' ∧ b = p ++ y :: b' ∧ x.par = y.par ∧
      x.sum.1 ≠ y.sum.1 ∧ n = width p + x.par.2 := by
  constructor
  · intro h
    induction a generalizing b n with
    | nil => simp [mutexVars] at h
    | cons x a ih =>
      cases b with
      | nil => simp [mutexVars] at h
      | cons y b =>
        simp only [mutexVars] at h
        by_cases hxy : x = y
        · subst hxy
          simp only [if_true, Option.map_eq_some_iff] at h
          obtain ⟨m, hm, rfl⟩ := h
          obtain ⟨p, x', y', a', b', rfl, rfl, h1, h2, rfl⟩ := ih b m hm
          exact ⟨x :: p, x', y', a', b', rfl, rfl, h1, h2, by simp [width]; omega⟩
        · simp only [hxy, if_false] at h
          by_cases hc : x.par = y.par ∧ x.sum.1 ≠ y.sum.1
          · simp only [hc, if_true, Option.some.injEq, ne_eq, not_false_eq_true, and_self] at h
            exact ⟨[], x, y, a, b, rfl, rfl, hc.1, hc.2, by simp [width, ← h, hc.1]⟩
          · simp [hc] at h
  · rintro ⟨p, x, y, a', b', rfl, rfl, h1, h2, rfl⟩
    induction p with
    | nil =>
      have : x ≠ y := fun e => h2 (by rw [e])
      simp [mutexVars, this, h1, h2, width]
    | cons z p ih =>
      simp only [List.cons_append, mutexVars, if_true, ih, Option.map_some, width, List.map_cons, List.sum_cons]
      simp only [Option.some.injEq]
      omega

theorem C38_mutex_symm (a b : AT Nat) : mutexVars a b = mutexVars b a := by
  have key : ∀ (a b : AT Nat) (n : Nat), mutexVars a b = some n → mutexVars b a = some n := by
    intro a b n h
    obtain ⟨p, x, y, a', b', rfl, rfl, h1, h2, rfl⟩ := (C38_mutex_iff a b n).1 h
    exact (C38_mutex_iff _ _ _).2 ⟨p, y, x, b', a', rfl, rfl, h1.symm, Ne.symm h2, by rw [h1]⟩
  cases h : mutexVars a b with
  | some n => exact (key a b n h).symm
  | none =>
    cases h' : mutexVars b a with
    | none => rfl
    | some n => rw [key b a n h'] at h; simp at h

theorem mutex_prefix : ∀ a b : AT Nat, a <+: b → mutexVars a b = none
  | [], _, _ => by simp [mutexVars]
  | x :: a, [], h => by simp at h
  | x :: a, y :: b, h => by
    rw [List.cons_prefix_cons] at h
    obtain ⟨rfl, h⟩ := h
    simp [mutexVars, mutex_prefix a b h]

/-- Dependency and mutual exclusion never both apply. -/
theorem C38_disjoint (a b : AT (List JVar)) (h : depends a b ≠ none) :
    mutexVars (shapeOf a) (shapeOf b) = none := by
  cases hd : depends a b with
  | none => exact absurd hd h
  | some o =>
    cases o with
    | true => exact mutex_prefix _ _ (((C38_depends_iff a b).1.1 hd).1.map _)
    | false =>
      rw [C38_mutex_symm]
      exact mutex_prefix _ _ (((C38_depends_iff a b).2.1.1 hd).1.map _)

/-! ### The emitted orderings -/

variable (C : Ctx)

/-- The binding of a variable. -/
def bnd (v : JVar) : Option Bnd := (dTy C v.sort).map fun s => (C.san .variable v.name, s)

theorem bindVar_eq (v : JVar) : bindVar C v = match bnd C v with | some b => rpure b | none => .err := by
  simp only [bindVar, convTy_eq, bnd]
  cases dTy C v.sort <;> rfl

theorem mkOrd_eq (vs : List JVar) (t1 t2 : Tm) (k : OrdKind) :
    mkOrd C vs t1 t2 k = match seqOpt (vs.map (bnd C)) with | some bs => .ok ⟨bs, t1, t2, k⟩ | none => .err := by
  have h : Res.collect (vs.map (bindVar C)) =
      match seqOpt (vs.map (bnd C)) with | some bs => .ok (bs.map .any) | none => .err := by
    induction vs with
    | nil => rfl
    | cons v vs ih =>
      simp only [List.map_cons, Res.collect, bindVar_eq C v]
      cases hv : bnd C v with
      | none => rfl
      | some b =>
        simp only [rpure, Res.bind, ih, seqOpt]
        cases seqOpt (vs.map (bnd C)) <;> rfl
  simp only [mkOrd, h]
  cases seqOpt (vs.map (bnd C)) with
  | none => rfl
  | some bs => simp only [Res.bind, transpose_any]; rfl

/-- The index variables of a control path. -/
def vars (a : AT (List JVar)) : List JVar := a.flatMap fun x => x.par.2 ++ x.sum.2

theorem width_shape (p : AT (List JVar)) : width (shapeOf p) = (vars p).length := by
  induction p with
  | nil => rfl
  | cons x p ih =>
    simp only [width, shapeOf, List.map_cons, List.sum_cons, vars, List.flatMap_cons, List.length_append] at ih ⊢
    omega

theorem freshen_spec (names : List String) : ∀ (fuel : Nat) (s : String), s ≠ "$dummy" →
    (names.filter fun n => s.length ≤ n.length).length < fuel →
    ∃ s', freshen fuel names s = .ok s' ∧ s' ∉ names := by
  intro fuel
  induction fuel with
  | zero => intro s _ h; omega
  | succ fuel ih =>
    intro s hs h
    simp only [freshen]
    by_cases hm : s ∈ names
    · simp only [hm, if_true, hs, if_false]
      refine ih _ ?_ ?_
      · intro e
        have : (s ++ "_u").toList.getLast? = "$dummy".toList.getLast? := by rw [e]
        simp [String.toList_append] at this
      · have hlen : (s ++ "_u").length = s.length + 2 := by
          rw [String.length_append]; rfl
        have hlt : (names.filter fun n => (s ++ "_u").length ≤ n.length).length <
            (names.filter fun n => s.length ≤ n.length).length := by
          have key : ∀ l : List String, (s ∈ l → (l.filter fun n => decide ((s ++ "_u").length ≤ n.length)).length <
              (l.filter fun n => decide (s.length ≤ n.length)).length) ∧
              (l.filter fun n => decide ((s ++ "_u").length ≤ n.length)).length ≤
              (l.filter fun n => decide (s.length ≤ n.length)).length := by
            intro l
            induction l with
            | nil => simp
            | cons x l ihl =>
              rw [hlen] at ihl ⊢
              simp only [List.filter_cons]
              by_cases h1 : s.length + 2 ≤ x.length
              · have h2 : s.length ≤ x.length := by omega
                simp only [h1, h2, decide_true, if_true, List.length_cons]
                refine ⟨fun hx => ?_, by omega⟩
                rcases List.mem_cons.1 hx with rfl | hx
                · omega
                · have := ihl.1 hx; omega
              · by_cases h2 : s.length ≤ x.length
                · simp only [h1, h2, decide_true, decide_false, if_true, List.length_cons, Bool.false_eq_true, if_false]
                  exact ⟨fun _ => by omega, by omega⟩
                · simp only [h1, h2, decide_false, Bool.false_eq_true, if_false]
                  refine ⟨fun hx => ?_, ihl.2⟩
                  rcases List.mem_cons.1 hx with rfl | hx
                  · omega
                  · exact ihl.1 hx
          exact (key names).1 hm
        omega
    · simp only [hm, if_false]
      exact ⟨s, rfl, hm⟩

theorem renameAll_spec : ∀ (vs : List JVar) (names : List String), (∀ v ∈ vs, v.name ≠ "$dummy") →
    ∃ l, renameAll names vs = .ok l ∧ l.map (·.sort) = vs.map (·.sort) ∧ (l.map (·.name)).Nodup ∧
      ∀ v ∈ l, v.name ∉ names
  | [], names, _ => ⟨[], rfl, rfl, List.nodup_nil, by simp⟩
  | v :: vs, names, h => by
    obtain ⟨s, hs1, hs2⟩ := freshen_spec names (names.length + 1) v.name (h v (by simp))
      (Nat.lt_succ_of_le (List.length_filter_le _ _))
    obtain ⟨l, hl1, hl2, hl3, hl4⟩ := renameAll_spec vs (s :: names) (fun w hw => h w (by simp [hw]))
    refine ⟨⟨s, v.sort⟩ :: l, by simp [renameAll, hs1, Res.bind, hl1], by simp [hl2], ?_, ?_⟩
    · simp only [List.map_cons, List.nodup_cons]
      refine ⟨?_, hl3⟩
      intro hm
      obtain ⟨w, hw, hw'⟩ := List.mem_map.1 hm
      exact hl4 w hw (by simp [hw'])
    · intro w hw
      rcases List.mem_cons.1 hw with rfl | hw
      · exact hs2
      · exact fun hn => hl4 w hw (by simp [hn])

/-- An action whose index variables are those of its control path. -/
def Act.inv (a : Act) : Prop := a.indices = vars a.action

theorem vars_prefix {a b : AT (List JVar)} (h : a <+: b) : vars a <+: vars b := by
  obtain ⟨c, rfl⟩ := h
  exact ⟨vars c, by simp [vars]⟩

/-- A step that strictly precedes another in the control flow: the ordering emitted says so, for all
values of the index variables of the later step, among which are those of the earlier. -/
theorem C38_depends_lemma {a b : Act} (ha : a.inv) (hb : b.inv) (h : a.action <+: b.action ∧ a.action ≠ b.action) :
    a.indices <+: b.indices ∧
    (∀ bs, seqOpt (b.indices.map (bnd C)) = some bs →
      pairLemma C a b = .ok (some ⟨bs, stepTm C a.name a.indices, stepTm C b.name b.indices, .lt⟩) ∧
      pairLemma C b a = .ok (some ⟨bs, stepTm C a.name a.indices, stepTm C b.name b.indices, .lt⟩)) := by
  have hp : a.indices <+: b.indices := by rw [ha, hb]; exact vars_prefix h.1
  have hl : ¬ b.indices.length < a.indices.length := by have := hp.length_le; omega
  have h1 := (C38_depends_iff a.action b.action).1.2 h
  have h2 := (C38_strict_order (A := List JVar)).2.1 a.action b.action |>.1 h1
  refine ⟨hp, fun bs hbs => ⟨?_, ?_⟩⟩
  · simp only [pairLemma, dependsLemma, h1, if_true, if_neg hl, mkOrd_eq, hbs, Res.map, Res.bind]
  · simp only [pairLemma, dependsLemma, h2, Bool.false_eq_true, if_false, if_neg hl, mkOrd_eq, hbs, Res.map, Res.bind]

theorem mutex_widths {a b : AT (List JVar)} {i : Nat} (h : mutexVars (shapeOf a) (shapeOf b) = some i) :
    i ≤ (vars a).length ∧ i ≤ (vars b).length ∧ a ≠ b := by
  obtain ⟨p, x, y, a', b', h1, h2, h3, h4, h5⟩ := (C38_mutex_iff _ _ _).1 h
  have e : ∀ (z : Item Nat) (c : AT Nat), width (p ++ z :: c) = width p + (z.par.2 + z.sum.2) + width c := by
    intro z c; simp [width]; omega
  refine ⟨?_, ?_, ?_⟩
  · rw [← width_shape, h1, e]; omega
  · rw [← width_shape, h2, e, h5, h3]; omega
  · intro he
    rw [he, h2] at h1
    have := List.append_cancel_left h1
    simp only [List.cons.injEq] at this
    exact h4 (by rw [this.1])

/-- Two steps in different branches of a choice: the ordering emitted says that they are incompatible
whenever they agree on the index variables before the choice, whatever the others: the other variables of
the second are renamed apart from all those of the first and from each other. -/
theorem C38_mutex_lemma {a b : Act} (ha : a.inv) (hb : b.inv) (hd : ∀ v ∈ b.indices, v.name ≠ "$dummy") {i : Nat}
    (h : mutexVars (shapeOf a.action) (shapeOf b.action) = some i) :
    i ≤ a.indices.length ∧ i ≤ b.indices.length ∧
    ∃ other : List JVar, other.map (·.sort) = (b.indices.drop i).map (·.sort) ∧ (other.map (·.name)).Nodup ∧
      (∀ v ∈ other, v.name ∉ a.indices.map (·.name)) ∧
      ∀ bs, seqOpt ((a.indices ++ other).map (bnd C)) = some bs →
        pairLemma C a b = .ok (some ⟨bs, stepTm C a.name a.indices,
          stepTm C b.name (a.indices.take i ++ other), .incompatible⟩) := by
  obtain ⟨h1, h2, hne⟩ := mutex_widths h
  rw [← ha] at h1
  rw [← hb] at h2
  obtain ⟨l, hl1, hl2, hl3, hl4⟩ := renameAll_spec (b.indices.drop i) (a.indices.map (·.name))
    (fun v hv => hd v (List.mem_of_mem_drop hv))
  refine ⟨h1, h2, l, hl2, hl3, hl4, fun bs hbs => ?_⟩
  have hdep : depends a.action b.action = none := by
    cases hd : depends a.action b.action with
    | none => rfl
    | some o => rw [C38_disjoint _ _ (by rw [hd]; simp)] at h; simp at h
  have hab : ¬ (a = b ∧ a.indices.length = i) := fun e => hne (by rw [e.1])
  have hlen : ¬ (a.indices.length < i ∨ b.indices.length < i) := by omega
  simp only [pairLemma, dependsLemma, hdep, Res.bind, mutexLemma, h, if_neg hab, if_neg hlen, hl1, mkOrd_eq, hbs,
    Res.map]

/-- Two steps that are neither ordered nor exclusive give rise to nothing. -/
theorem C38_no_lemma {a b : Act} (h1 : depends a.action b.action = none)
    (h2 : mutexVars (shapeOf a.action) (shapeOf b.action) = none) : pairLemma C a b = .ok none := by
  simp only [pairLemma, dependsLemma, h1, Res.bind, mutexLemma, h2]

theorem mem_pairs {α : Type} (a b : α) : ∀ l : List α, (a, b) ∈ pairs l ↔ [a, b].Sublist l
  | [] => by simp [pairs]
  | x :: l => by
    simp only [pairs, List.mem_append, List.mem_map, Prod.mk.injEq, mem_pairs a b l]
    constructor
    · rintro (⟨y, hy, rfl, rfl⟩ | h)
      · exact (List.singleton_sublist.2 hy).cons_cons _
      · exact h.cons _
    · intro h
      cases h with
      | cons _ h => exact Or.inr h
      | cons_cons _ h => exact Or.inl ⟨b, List.singleton_sublist.1 h, rfl, rfl⟩

/-- Every pair of steps other than `init` is considered, once, and `init` never. -/
theorem C38_all_pairs (steps : List Act) (o : Ord) :
    .ok o ∈ orderLemmas C steps ↔ ∃ a b, [a, b].Sublist (steps.filter fun a => a.name.toStr ≠ "init") ∧
      pairLemma C a b = .ok (some o) := by
  simp only [orderLemmas, List.mem_filterMap]
  constructor
  · rintro ⟨⟨a, b⟩, hp, h⟩
    refine ⟨a, b, (mem_pairs a b _).1 hp, ?_⟩
    cases hl : pairLemma C a b with
    | err => simp [hl] at h
    | panic => simp [hl] at h
    | ok r => cases r <;> simp [hl] at h; rw [h]
  · rintro ⟨a, b, hp, h⟩
    exact ⟨(a, b), (mem_pairs a b _).2 hp, by simp [h]⟩

/-! Samples: `A(i)`, then a choice between `B(i, j)` and `B'(i, j)`. -/

def exV (s : String) : JVar := ⟨s, .index⟩
def exA : Act := ⟨⟨[], "A"⟩, [⟨(0, [exV "i"]), (0, [])⟩], [exV "i"]⟩
def exB : Act := ⟨⟨[], "B"⟩, [⟨(0, [exV "i"]), (0, [])⟩, ⟨(0, []), (0, [exV "j"])⟩], [exV "i", exV "j"]⟩
def exB' : Act := ⟨⟨[], "B'"⟩, [⟨(0, [exV "i"]), (0, [])⟩, ⟨(0, []), (1, [exV "j"])⟩], [exV "i", exV "j"]⟩

example : exA.inv ∧ exB.inv ∧ exB'.inv := ⟨rfl, rfl, rfl⟩
example : exA.action <+: exB.action ∧ exA.action ≠ exB.action := ⟨by simp [exA, exB], by decide⟩
example : mutexVars (shapeOf exB.action) (shapeOf exB'.action) = some 1 := by decide
example : renameAll ["i", "j"] [exV "j"] = .ok [exV "j_u"] := by decide +kernel
example : ∃ o, pairLemma exCtx exB exB' = .ok (some o) ∧ o.kind = .incompatible ∧
    o.args.map (·.2) = ["index", "index", "index"] := by
  obtain ⟨_, _, other, h1, _, _, h⟩ := C38_mutex_lemma exCtx (a := exB) (b := exB') rfl rfl
    (by decide +kernel) (i := 1) (by decide)
  obtain ⟨v, rfl⟩ : ∃ v, other = [v] := by
    have := congrArg List.length h1
    simp only [List.length_map] at this
    exact List.length_eq_one_iff.1 this
  have hv : v.sort = .index := by simpa [exB', exV] using h1
  exact ⟨_, h _ (show _ = some [(exCtx.san .variable "i", "index"), (exCtx.san .variable "j", "index"),
    (exCtx.san .variable v.name, "index")] by
    simp only [exB, List.cons_append, List.nil_append, List.map_cons, List.map_nil, bnd, hv, exV, dTy,
      Option.map_some, seqOpt]), rfl, rfl⟩

/-- A clash on the placeholder variable cannot be renamed: its name with a suffix is not a valid one, and the
tool aborts. -/
theorem C38_dummy_panics :
    ∃ a b : Act, a.inv ∧ b.inv ∧ pairLemma exCtx a b = .panic :=
  ⟨⟨⟨[], "B"⟩, [⟨(0, []), (0, [exV "$dummy"])⟩], [exV "$dummy"]⟩,
   ⟨⟨[], "B'"⟩, [⟨(0, []), (1, [exV "$dummy"])⟩], [exV "$dummy"]⟩, rfl, rfl, by rfl⟩

/-! ### C39: output locations -/

/-- The location written for the `i`-th problem, as coded: the indices accumulate. -/
theorem C39_accumulates (join : String → Nat → String) (loc : String) (n i : Nat) (hi : i < n) :
    (locations join (some loc) n)[i]? = some (some ((List.range (i + 1)).foldl join loc)) := by
  have key : ∀ (n k : Nat) (l : String) (i : Nat), i < n →
      (locations.go join (some l) k n)[i]? = some (some ((List.range' k (i + 1)).foldl join l)) := by
    intro n
    induction n with
    | zero => intro k l i hi; omega
    | succ n ih =>
      intro k l i hi
      simp only [locations.go, Option.map_some]
      cases i with
      | zero => simp [List.range'_succ]
      | succ i =>
        rw [List.getElem?_cons_succ, ih (k + 1) (join l k) i (by omega)]
        simp [List.range'_succ]
  rw [List.range_eq_range']
  exact key n 0 loc i hi

/-- The location of the first problem is the promised one, and without a location none is made up. -/
theorem C39_first_partial (join : String → Nat → String) (loc : String) (n : Nat) (hn : 0 < n) :
    (locations join (some loc) n)[0]? = some (some (join loc 0)) ∧
    (∀ o ∈ locations join none n, o = none) ∧ (locations join none n).length = n := by
  refine ⟨by rw [C39_accumulates join loc n 0 hn]; rfl, ?_, ?_⟩
  · have key : ∀ n k, ∀ o ∈ locations.go join none k n, o = none := by
      intro n
      induction n with
      | zero => intro k o h; simp [locations.go] at h
      | succ n ih =>
        intro k o h
        simp only [locations.go, Option.map_none, List.mem_cons] at h
        rcases h with h | h
        · exact h
        · exact ih _ _ h
    exact key n 0
  · have key : ∀ n k, (locations.go join none k n).length = n := by
      intro n
      induction n with
      | zero => intro k; rfl
      | succ n ih => intro k; simp [locations.go, ih]
    exact key n 0

/-- The second problem is written below the location of the first. -/
theorem C39_counterexample :
    locations (fun l i => l ++ "/" ++ toString i) (some "out") 2 = [some "out/0", some "out/0/1"] := by
  decide +kernel

end Sq
end CV
