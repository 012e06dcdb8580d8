import Verif.OrderProps
/-
A concrete family of executions: every sequence of step instances gives a structure that is a run of
the protocol. Used to show that the hypotheses of the property theorems are satisfiable, and for
counterexamples.
-/
namespace CV
open SFm Fm

/-- Values: time points (step number and index values), the undefined time point, indices, truth
values, and other data (messages). -/
inductive V
  | undef
  | pt (n : Nat) (is : List Nat)
  | idx (n : Nat)
  | tt (p : Prop)
  | msg (n : Nat)

def V.toIdx : V → Nat
  | .idx n => n
  | _ => 0

def V.truth : V → Prop
  | .tt p => p
  | _ => False

/-- The time value of an action. -/
def V.ofAct (a : Nat × List Nat) : V := .pt a.1 a.2

theorem V.ofAct_inj {a b : Nat × List Nat} (h : V.ofAct a = V.ofAct b) : a = b := by
  cases a; cases b; simp [V.ofAct] at h; simp [h]

/-- Previous point in a sequence. -/
noncomputable def V.predIn : List V → V → V
  | a :: b :: l, d => open Classical in if d = b then a else predIn (b :: l) d
  | _, _ => .undef

/-- The structure of an action sequence; `rest` interprets the other symbols. -/
noncomputable def stdStr (acts : List (Nat × List Nat)) (rest : Sym → List V → V) : Str Sym V where
  fn f l := match f, l with
    | .bool .tru, [] => .tt True
    | .bool .fls, [] => .tt False
    | .bool .and, l => .tt (∀ a ∈ l, a.truth)
    | .bool .or, l => .tt (∃ a ∈ l, a.truth)
    | .bool .not, [a] => .tt (¬ a.truth)
    | .bool .imp, [a, b] => .tt (a.truth → b.truth)
    | .bool .eq, [a, b] => .tt (a = b)
    | .happens, [d] => .tt (d ∈ acts.map V.ofAct)
    | .leq, [a, b] => .tt (∃ i j : Nat, i ≤ j ∧ (acts.map V.ofAct)[i]? = some a ∧
        (acts.map V.ofAct)[j]? = some b)
    | .lt, [a, b] => .tt (∃ i j : Nat, i < j ∧ (acts.map V.ofAct)[i]? = some a ∧
        (acts.map V.ofAct)[j]? = some b)
    | .pred, [d] => V.predIn (acts.map V.ofAct) d
    | .step n, l => if (n, l.map V.toIdx) ∈ acts then .pt n (l.map V.toIdx) else .undef
    | f, l => rest f l
  truth := V.truth
  ofProp := V.tt
  truth_ofProp := fun _ => Iff.rfl
  dom s d := match s with
    | .step => d ∈ acts.map V.ofAct ∨ d = .undef
    | .index => ∃ n, d = .idx n
    | .bool => ∃ p, d = .tt p
    | .message => ∃ n, d = .msg n
    | _ => True

theorem stdStr_logic (acts rest) : Logic (stdStr acts rest) where
  tru := rfl
  fls := rfl
  and := fun _ => rfl
  or := fun _ => rfl
  not := fun _ => rfl
  imp := fun _ _ => rfl
  eq := fun _ _ => rfl

theorem V.predIn_succ : ∀ (l : List V), l.Nodup → ∀ (i : Nat) (a b : V), l[i]? = some a →
    l[i + 1]? = some b → V.predIn l b = a
  | [], _, _, _, _, h, _ => by simp at h
  | [x], _, i, _, _, _, h => by simp at h
  | x :: y :: l, hn, 0, a, b, ha, hb => by
    simp at ha hb
    simp [V.predIn, ha, hb]
  | x :: y :: l, hn, i + 1, a, b, ha, hb => by
    rw [List.nodup_cons] at hn
    have hb' : (y :: l)[i + 1]? = some b := by simpa using hb
    have ha' : (y :: l)[i]? = some a := by simpa using ha
    have hne : b ≠ y := by
      rintro rfl
      have := (List.nodup_cons.1 hn.2).1
      apply this
      exact List.mem_iff_getElem?.2 ⟨i, by simpa using hb'⟩
    simp only [V.predIn, if_neg hne]
    exact V.predIn_succ (y :: l) hn.2 i a b ha' hb'

theorem V.predIn_undef : ∀ (l : List V) (d : V), d ∉ l.tail → V.predIn l d = .undef
  | [], _, _ => rfl
  | [x], _, _ => rfl
  | x :: y :: l, d, h => by
    simp only [List.tail_cons, List.mem_cons, not_or] at h
    simp only [V.predIn, if_neg h.1]
    exact V.predIn_undef (y :: l) d h.2

theorem map_ofAct_nodup {acts : List (Nat × List Nat)} (h : acts.Nodup) : (acts.map V.ofAct).Nodup := by
  induction acts with
  | nil => simp
  | cons a l ih =>
    rw [List.nodup_cons] at h
    simp only [List.map_cons, List.nodup_cons]
    refine ⟨?_, ih h.2⟩
    intro hm
    obtain ⟨b, hb, he⟩ := List.mem_map.1 hm
    exact h.1 (V.ofAct_inj he ▸ hb)

theorem stdStr_trace (a : Nat × List Nat) (l : List (Nat × List Nat)) (h : (a :: l).Nodup) (rest) :
    IsTrace (stdStr (a :: l) rest) ((a :: l).map V.ofAct) .undef (V.ofAct a) where
  nodup := map_ofAct_nodup h
  undef_not := by
    intro hm
    obtain ⟨b, _, he⟩ := List.mem_map.1 hm
    cases he
  head := rfl
  dom_step := fun d => Iff.rfl
  happens := fun d => rfl
  leq := fun a b => rfl
  lt := fun a b => rfl
  pred_succ := fun i a b ha hb => V.predIn_succ _ (map_ofAct_nodup h) i a b ha hb
  pred_first := by
    apply V.predIn_undef
    exact (List.nodup_cons.1 (map_ofAct_nodup h)).1
  pred_undef := by
    apply V.predIn_undef
    intro hm
    have : V.undef ∈ (a :: l).map V.ofAct := List.mem_of_mem_tail hm
    obtain ⟨b, _, he⟩ := List.mem_map.1 this
    cases he

/-- A sequence of actions of the protocol: distinct instances of its steps, starting with init. -/
structure ActSeq (p : Protocol) (a : Nat × List Nat) (l : List (Nat × List Nat)) : Prop where
  nodup : (a :: l).Nodup
  fids : ∀ s ∈ p.steps, ∀ s' ∈ p.steps, s.fid = s'.fid → s = s'
  index : ∀ s ∈ p.steps, ∀ v ∈ s.vars, v.sort = .index
  init : ∀ i, p.init = some i → i.vars = [] ∧ a = (i.fid, [])
  inst : ∀ b ∈ a :: l, ∃ s ∈ p.steps, b.1 = s.fid ∧ b.2.length = s.vars.length

theorem InDoms.idx {acts rest} : ∀ {vs : List Var} {ds : List V}, (∀ v ∈ vs, v.sort = .index) →
    InDoms (stdStr acts rest) vs ds → ds = (ds.map V.toIdx).map V.idx
  | [], [], _, _ => rfl
  | v :: vs, d :: ds, hi, h => by
    have h1 := h.1
    rw [hi v List.mem_cons_self] at h1
    obtain ⟨n, rfl⟩ := h1
    have := InDoms.idx (fun w hw => hi w (List.mem_cons_of_mem _ hw)) h.2
    simp only [List.map_cons, V.toIdx]
    rw [← this]
  | [], d :: ds, _, h => h.elim
  | v :: vs, [], _, h => h.elim

theorem InDoms.of_idx {acts rest} : ∀ {vs : List Var} {is : List Nat}, (∀ v ∈ vs, v.sort = .index) →
    is.length = vs.length → InDoms (stdStr acts rest) vs (is.map V.idx)
  | [], [], _, _ => trivial
  | v :: vs, i :: is, hi, h => by
    refine ⟨?_, InDoms.of_idx (fun w hw => hi w (List.mem_cons_of_mem _ hw)) (by simpa using h)⟩
    rw [hi v List.mem_cons_self]
    exact ⟨i, rfl⟩
  | [], d :: ds, _, h => by simp at h
  | v :: vs, [], _, h => by simp at h

theorem stdStr_step (acts rest n l) : (stdStr acts rest).fn (.step n) l =
    if (n, l.map V.toIdx) ∈ acts then .pt n (l.map V.toIdx) else .undef := rfl

theorem toIdx_idx (is : List Nat) : (is.map V.idx).map V.toIdx = is := by
  induction is with
  | nil => rfl
  | cons i is ih => simp only [List.map_cons, V.toIdx, ih]

/-- Every action sequence of a protocol is a run of it. -/
theorem stdStr_run {p : Protocol} {a l} (h : ActSeq p a l) (rest) :
    IsRun (stdStr (a :: l) rest) p ((a :: l).map V.ofAct) .undef (V.ofAct a) where
  toIsTrace := stdStr_trace a l h.nodup rest
  init := by
    intro i hi
    obtain ⟨h1, h2⟩ := h.init i hi
    refine ⟨h1, ?_⟩
    subst h2
    rw [stdStr_step]
    simp [V.ofAct]
  inst := by
    intro s _ as _
    rw [stdStr_step]
    by_cases hm : (s.fid, as.map V.toIdx) ∈ a :: l
    · left; rw [if_pos hm]; exact List.mem_map.2 ⟨_, hm, rfl⟩
    · right; rw [if_neg hm]
  inj := by
    intro s hs s' hs' as bs has hbs hm he
    rw [stdStr_step] at he hm
    rw [stdStr_step] at he
    by_cases h1 : (s.fid, as.map V.toIdx) ∈ a :: l
    · rw [if_pos h1] at he hm
      by_cases h2 : (s'.fid, bs.map V.toIdx) ∈ a :: l
      · rw [if_pos h2] at he
        injection he with e1 e2
        refine ⟨e1, ?_⟩
        rw [InDoms.idx (h.index s hs) has, InDoms.idx (h.index s' hs') hbs, e2]
      · rw [if_neg h2] at he; cases he
    · rw [if_neg h1] at hm
      exact absurd hm (stdStr_trace a l h.nodup rest).undef_not
  surj := by
    intro d hd
    obtain ⟨b, hb, rfl⟩ := List.mem_map.1 hd
    obtain ⟨s, hs, e1, e2⟩ := h.inst b hb
    refine ⟨s, hs, b.2.map V.idx, InDoms.of_idx (h.index s hs) e2, ?_⟩
    rw [stdStr_step, toIdx_idx, ← e1, if_pos hb]
    rfl

/-! A concrete protocol: `init` and a step `A(i)`, and the execution init, A(0), A(1). -/

def exInit : Step := ⟨0, "init", [], SFm.tru, .app (.user 0) []⟩
def exA : Step := ⟨1, "A", [⟨0, .index⟩], .app (.user 1) [.var ⟨0, .index⟩], .app .input [st 7]⟩
def exProto : Protocol := ⟨[exInit, exA], [], [⟨.all, [⟨0, .index⟩], .lt exInit.formula exA.formula, SFm.tru⟩]⟩

theorem exSeq : ActSeq exProto (0, []) [(1, [0]), (1, [1])] where
  nodup := by decide
  fids := by
    simp [exProto, exInit, exA]
  index := by simp [exProto, exInit, exA]
  init := by
    intro i hi
    simp [exProto, Protocol.init] at hi
    subst hi
    exact ⟨rfl, rfl⟩
  inst := by simp [exProto, exInit, exA]

/-- C08–C10 non-vacuity: the hypotheses hold for init, A(0), A(1), and the user order is obeyed. -/
example : ∀ ρ, ∀ l, orderGenerate exProto = some l → ∀ ax ∈ l, ax = gtAxiom ∨
    holds (stdStr ((0, []) :: [(1, [0]), (1, [1])]) (fun _ _ => .undef)) ρ ax := by
  intro ρ l hl
  refine C08_order_generate_partial (stdStr_logic _ _) (stdStr_run exSeq _) ?_ ρ l hl ?_
  · simp [exProto, exInit, exA, Step.WF]
  · intro o ho
    simp only [exProto, List.mem_cons, List.not_mem_nil, or_false] at ho
    subst ho
    have h := (C10_ordering (stdStr_logic ((0, []) :: [(1, [0]), (1, [1])]) (fun _ _ => .undef))
      (stdStr_run exSeq (fun _ _ => .undef)).toIsTrace [⟨0, .index⟩] none .lt exInit.formula
      exA.formula ρ).1
    refine h.2 ?_
    intro ds _ _ hmem
    obtain ⟨j, hj⟩ := List.mem_iff_getElem?.1 hmem
    refine ⟨0, j, Nat.zero_le _, ?_, hj⟩
    simp [exInit, Step.formula, eval, evals, stdStr_step, V.ofAct]
end CV
