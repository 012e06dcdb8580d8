/-
Properties of the conversion of whole Squirrel files (SqTop.lean).
-/
import Verif.SqTop
import Verif.SquirrelProps
import Verif.SqOrderProps
set_option linter.unusedVariables false
set_option linter.unusedSimpArgs false

namespace CV
namespace Sq
open Txt2 (Stm Asg Appl AKind)

/-! ### The value of an outcome that is common to all systems -/

/-- The value of an outcome that does not depend on the system. -/
def val {α : Type} : Res (AoO α) → Option α
  | .ok (.any x) => some x
  | _ => none

variable {α β τ : Type}

theorem val_some {x : Res (AoO α)} {a : α} (h : val x = some a) : x = .ok (.any a) := by
  match x, h with
  | .ok (.any y), h => simp only [val, Option.some.injEq] at h; rw [h]

theorem val_rbind (x : Res (AoO α)) (f : α → Res (AoO β)) : val (rbind x f) = (val x).bind fun a => val (f a) := by
  match x with
  | .err => rfl
  | .panic => rfl
  | .ok (.any a) =>
    simp only [rbind, Res.bind, AoO.bind, val, Option.bind_some]
    match f a with
    | .err => rfl
    | .panic => rfl
    | .ok (.any b) => rfl
    | .ok (.all b) => rfl
    | .ok (.one i b) => rfl
  | .ok (.all l) =>
    simp only [rbind, Res.bind, AoO.bind, val, Option.bind_none]
    cases AoO.goAll f 0 l <;> rfl
  | .ok (.one i a) =>
    simp only [rbind, Res.bind, AoO.bind, val, Option.bind_none]
    cases h : f a with
    | err => rfl
    | panic => rfl
    | ok r =>
      simp only [Res.bind]
      cases r.ownedGet i <;> rfl

theorem collect_vals : ∀ (rs : List (Res (AoO α))) (m : List α), seqOpt (rs.map val) = some m →
    Res.collect rs = .ok (m.map .any)
  | [], m, h => by simp [seqOpt] at h; subst h; rfl
  | r :: rs, m, h => by
    simp only [List.map_cons] at h
    cases hv : val r with
    | none => rw [hv] at h; simp [seqOpt] at h
    | some a =>
      rw [hv] at h
      simp only [seqOpt, Option.map_eq_some_iff] at h
      obtain ⟨m', hm, rfl⟩ := h
      simp [Res.collect, val_some hv, collect_vals rs m' hm, Res.bind]

theorem merge_ne_any : ∀ (l : List Shape) (s : Shape), s ≠ .any → AoO.mergeShapes s l ≠ .ok .any
  | [], s, h => fun e => by simp [AoO.mergeShapes] at e; exact h e
  | t :: r, s, h => by
    simp only [AoO.mergeShapes]
    cases hm : s.tryMerge t with
    | none => simp
    | some u =>
      refine merge_ne_any r u ?_
      rintro rfl
      cases s <;> cases t <;> simp [Shape.tryMerge] at hm h

theorem merge_any : ∀ (l : List Shape), AoO.mergeShapes .any l = .ok .any → ∀ t ∈ l, t = .any
  | [], _ => nofun
  | t :: r, h => by
    simp only [AoO.mergeShapes] at h
    cases t with
    | any =>
      simp only [Shape.tryMerge] at h
      intro u hu
      rcases List.mem_cons.1 hu with rfl | hu
      · rfl
      · exact merge_any r h u hu
    | all n => simp only [Shape.tryMerge] at h; exact absurd h (merge_ne_any _ _ (by simp))
    | one i => simp [Shape.tryMerge] at h

theorem collect_inv : ∀ {rs : List (Res α)} {l : List α}, Res.collect rs = .ok l → rs = l.map .ok
  | [], l, h => by simp [Res.collect] at h; subst h; rfl
  | .err :: rs, l, h => by simp [Res.collect, Res.bind] at h
  | .panic :: rs, l, h => by simp [Res.collect, Res.bind] at h
  | .ok a :: rs, l, h => by
    simp only [Res.collect, Res.bind] at h
    cases hc : Res.collect rs with
    | err => rw [hc] at h; simp at h
    | panic => rw [hc] at h; simp at h
    | ok m => rw [hc] at h; simp only [Res.ok.injEq] at h; subst h; simp [collect_inv hc]

theorem val_gather (rs : List (Res (AoO α))) : val (gather rs) = seqOpt (rs.map val) := by
  cases hs : seqOpt (rs.map val) with
  | some m => simp [gather, collect_vals rs m hs, Res.bind, transpose_any, val]
  | none =>
    cases hg : val (gather rs) with
    | none => rfl
    | some x =>
      exfalso
      have h := val_some hg
      simp only [gather] at h
      cases hc : Res.collect rs with
      | err => rw [hc] at h; simp [Res.bind] at h
      | panic => rw [hc] at h; simp [Res.bind] at h
      | ok l =>
        rw [hc] at h
        simp only [Res.bind, AoO.transposeIter] at h
        have hl : ∀ t ∈ l.map AoO.shape, t = .any := by
          refine merge_any _ ?_
          cases hm : AoO.mergeShapes .any (l.map AoO.shape) with
          | err => rw [hm] at h; simp [Res.bind] at h
          | panic => rw [hm] at h; simp [Res.bind] at h
          | ok s =>
            rw [hm] at h
            cases s with
            | any => rfl
            | all n =>
              simp only [Res.bind] at h
              cases hh : Res.collect ((List.range n).map (AoO.column l)) <;> rw [hh] at h <;> simp at h
            | one i =>
              simp only [Res.bind] at h
              cases hh : AoO.column l i <;> rw [hh] at h <;> simp at h
        have hv : ∀ (l : List (AoO α)), (∀ t ∈ l.map AoO.shape, t = .any) →
            ∃ m, seqOpt ((l.map Res.ok).map val) = some m := by
          intro l
          induction l with
          | nil => intro _; exact ⟨[], rfl⟩
          | cons a l ih =>
            intro hl
            obtain ⟨m, hm⟩ := ih fun t ht => hl t (by simp at ht ⊢; exact Or.inr ht)
            have ha := hl a.shape (by simp)
            cases a with
            | any x =>
              refine ⟨x :: m, ?_⟩
              rw [List.map_cons, List.map_cons]
              simp only [val, seqOpt, hm]; rfl
            | all _ => simp [AoO.shape] at ha
            | one _ _ => simp [AoO.shape] at ha
        obtain ⟨m, hm⟩ := hv l hl
        rw [← collect_inv hc, hs] at hm
        cases hm

/-! ### Families of outcomes -/

/-- `x` never panics, is not an error when `S`, and when successful is the family of the values of the `x' i`. -/
abbrev RepV (n : Nat) (S : Prop) (x : Res (AoO α)) (x' : Nat → Res (AoO α)) : Prop := Rep n S x fun i => val (x' i)

theorem repV_bind {n : Nat} (hn : 0 < n) {S T : Prop} {x : Res (AoO α)} {x' : Nat → Res (AoO α)}
    {f : α → Res (AoO β)} {f' : Nat → α → Res (AoO β)} (hx : RepV n S x x') (hf : ∀ a, RepV n T (f a) fun i => f' i a) :
    RepV n (S ∧ T) (rbind x f) (fun i => rbind (x' i) (f' i)) :=
  (rep_bind hn hx (h := fun a i => val (f' i a)) hf).congr fun i _ => by rw [val_rbind]

theorem repV_pure {n : Nat} {S : Prop} (a : α) : RepV n S (rpure a) (fun _ => rpure a) := rep_pure n S a

theorem repV_map {n : Nat} (hn : 0 < n) {S : Prop} {x : Res (AoO α)} {x' : Nat → Res (AoO α)} (f : α → β) (hx : RepV n S x x') :
    RepV n S (rbind x fun a => rpure (f a)) (fun i => rbind (x' i) fun a => rpure (f a)) :=
  (repV_bind hn hx (T := True) fun a => repV_pure (f a)).mono fun s => ⟨s, trivial⟩

theorem repV_gather {n : Nat} {S : τ → Prop} {c : τ → Res (AoO α)} {c' : Nat → τ → Res (AoO α)} (ts : List τ)
    (h : ∀ t ∈ ts, RepV n (S t) (c t) fun i => c' i t) :
    RepV n (∀ t ∈ ts, S t) (gather (ts.map c)) (fun i => gather (ts.map (c' i))) :=
  (rep_collect ts h).congr fun i _ => by rw [val_gather, List.map_map]; rfl

/-- A list of outcomes that corresponds, element by element, to a family of lists of outcomes. -/
def RepL (n : Nat) (S : Prop) (rs : List (Res (AoO α))) (rs' : Nat → List (Res (AoO α))) : Prop :=
  ∃ es : List (Res (AoO α) × (Nat → Res (AoO α))), rs = es.map (·.1) ∧ (∀ i, rs' i = es.map (·.2 i)) ∧ ∀ e ∈ es, RepV n S e.1 e.2

theorem RepL.append {n : Nat} {S : Prop} {a b : List (Res (AoO α))} {a' b' : Nat → List (Res (AoO α))} (ha : RepL n S a a')
    (hb : RepL n S b b') : RepL n S (a ++ b) (fun i => a' i ++ b' i) := by
  obtain ⟨es, rfl, h2, h3⟩ := ha
  obtain ⟨fs, rfl, k2, k3⟩ := hb
  refine ⟨es ++ fs, by simp, fun i => by simp [h2 i, k2 i], fun e he => ?_⟩
  rcases List.mem_append.1 he with he | he
  · exact h3 e he
  · exact k3 e he

theorem RepL.filterMap {n : Nat} {S : Prop} {f : τ → Option (Res (AoO α))} {f' : Nat → τ → Option (Res (AoO α))} :
    ∀ {l : List τ}, (∀ t ∈ l, (f t = none ∧ ∀ i, f' i t = none) ∨
      ∃ x x', f t = some x ∧ (∀ i, f' i t = some (x' i)) ∧ RepV n S x x') →
    RepL n S (l.filterMap f) (fun i => l.filterMap (f' i))
  | [], _ => ⟨[], rfl, fun _ => rfl, nofun⟩
  | t :: l, h => by
    obtain ⟨es, h1, h2, h3⟩ := RepL.filterMap (l := l) fun u hu => h u (by simp [hu])
    rcases h t (by simp) with ⟨ht, ht'⟩ | ⟨x, x', ht, ht', hr⟩
    · exact ⟨es, by simp [ht, h1], fun i => by simp [ht' i, h2 i], h3⟩
    · refine ⟨(x, x') :: es, by simp [ht, h1], fun i => by simp [ht' i, h2 i], fun e he => ?_⟩
      rcases List.mem_cons.1 he with rfl | he
      · exact hr
      · exact h3 e he

theorem RepL.map {n : Nat} {S : Prop} {f : τ → Res (AoO α)} {f' : Nat → τ → Res (AoO α)} {l : List τ}
    (h : ∀ t ∈ l, RepV n S (f t) fun i => f' i t) : RepL n S (l.map f) (fun i => l.map (f' i)) := by
  have := RepL.filterMap (n := n) (S := S) (f := fun t => some (f t)) (f' := fun i t => some (f' i t)) (l := l)
    fun t ht => Or.inr ⟨_, _, rfl, fun _ => rfl, h t ht⟩
  simpa using this

theorem RepL.gather {n : Nat} {S : Prop} {rs : List (Res (AoO α))} {rs' : Nat → List (Res (AoO α))} (h : RepL n S rs rs') :
    RepV n S (Sq.gather rs) (fun i => Sq.gather (rs' i)) := by
  obtain ⟨es, rfl, h2, h3⟩ := h
  have := repV_gather (S := fun _ => S) (c := fun e : Res (AoO α) × (Nat → Res (AoO α)) => e.1) (c' := fun i e => e.2 i) es h3
  exact (this.mono fun s _ _ => s).congr fun i _ => by simp only [h2 i]

theorem RepL.same {n : Nat} {S : Prop} (l : List α) : RepL n S (l.map rpure) (fun _ => l.map rpure) :=
  RepL.map (f' := fun _ => rpure) fun t _ => repV_pure t

theorem repV_bindS {n : Nat} (hn : 0 < n) {S : Prop} {x : Res (AoO α)} {x' : Nat → Res (AoO α)}
    {f : α → Res (AoO β)} {f' : Nat → α → Res (AoO β)} (hx : RepV n S x x') (hf : ∀ a, RepV n S (f a) fun i => f' i a) :
    RepV n S (rbind x f) (fun i => rbind (x' i) (f' i)) := (repV_bind hn hx hf).mono fun s => ⟨s, s⟩

theorem RepV.sub {n : Nat} {S : Prop} {x : Res (AoO α)} {g : Nat → Option α} {x' : Nat → Res (AoO α)} (h : Rep n S x g)
    (hg : ∀ i y, i < n → g i = some y → x' i = rpure y) : RepV n S x x' := by
  cases x with
  | ok a => exact ⟨h.1, fun i hi => by obtain ⟨y, h1, h2⟩ := h.2 i hi; exact ⟨y, h1, by simp only [hg i y hi h2]; rfl⟩⟩
  | err => exact h
  | panic => exact h

theorem RepV.of_eq {n : Nat} {S : Prop} {x : Res (AoO α)} {x' x'' : Nat → Res (AoO α)} (h : RepV n S x x') (he : ∀ i, x' i = x'' i) :
    RepV n S x x'' := h.congr fun i _ => by simp only [he i]

/-! ### Selecting one system of a file -/

/-- The update of one system. -/
def selUpd (P : String) (u : Upd) : Upd := ⟨u.symb, selL P u.args, sel P u.body⟩

/-- The action of one system. -/
def selAct (P : String) (a : JAct) : JAct :=
  { a with cond := sel P a.cond, updates := a.updates.map (selUpd P), output := sel P a.output }

/-- The definition of an operator in one system. -/
def selDef (P : String) : OpDef → OpDef
  | .concrete args body => .concrete args (sel P body)
  | d => d

/-- The definition of a macro in one system. -/
def selMac (P : String) : MacDef → MacDef
  | .global inputs indices ts body => .global inputs indices ts (sel P body)
  | m => m

/-- SPECIFICATION. The file of system `P`: in every term, in every `diff`, the branch labelled `P`. -/
def selDump (P : String) (d : Dump) : Dump where
  query := sel P d.query
  hyps := selL P d.hyps
  vars := d.vars
  actions := d.actions.map (selAct P)
  names := d.names
  ops := d.ops.map fun e => (e.1, { e.2 with defn := selDef P e.2.defn })
  macs := d.macs.map fun e => (e.1, selMac P e.2)
  types := d.types

theorem selMac_inputs (P : String) (m : MacDef) : (selMac P m).inputs = m.inputs := by cases m <;> rfl
theorem selMac_data (P : String) (m : MacDef) : (selMac P m).data = m.data := by cases m <;> rfl

theorem find_map {α β : Type} (f : α → β) (l : List (Path × α)) (p : Path) :
    find (l.map fun e => (e.1, f e.2)) p = (find l p).map f := by
  induction l with
  | nil => rfl
  | cons e l ih =>
    simp only [find, List.map_cons] at ih ⊢
    by_cases h : e.1 = p
    · simp only [List.find?_cons, h, decide_true, Option.map_some]
    · simp only [List.find?_cons, h, decide_false, ih]

theorem ctx_sel (alnum : Char → Bool) (P : String) (d : Dump) : (selDump P d).ctx alnum = d.ctx alnum := by
  simp only [Dump.ctx, selDump]
  congr 1
  · funext p
    have := find_map (fun o : OpData => { o with defn := selDef P o.defn }) d.ops p
    rw [this, Option.map_map]; rfl
  · funext p
    have := find_map (selMac P) d.macs p
    rw [this, Option.map_map]
    congr 1
    funext m
    exact selMac_data P m

theorem byFlow_sel (P : String) (d : Dump) (v : AT (List JVar)) : (selDump P d).byFlow v = (d.byFlow v).map (selAct P) := by
  simp only [Dump.byFlow, selDump, ← List.map_reverse]
  induction d.actions.reverse with
  | nil => rfl
  | cons a l ih =>
    simp only [List.map_cons, List.find?_cons, ih]
    by_cases h : a.action = v
    · simp [selAct, h]
    · simp [selAct, h]

theorem firstMacro_sel (P : String) (d : Dump) (g : List Path) : firstMacro (selDump P d) g = (firstMacro d g).map (selMac P) := by
  simp only [firstMacro, selDump]
  induction g with
  | nil => rfl
  | cons p g ih =>
    have := find_map (selMac P) d.macs p
    simp only [List.findSome?_cons, this]
    cases find d.macs p with
    | none => simpa using ih
    | some m => rfl

theorem inputAt_sel (P : String) (a : JAct) : inputAt (selAct P a) = inputAt a := rfl

theorem addLets_sel (C : Ctx) (P : String) (d : Dump) (flow : AT (List JVar)) : ∀ (r : List JVar) (i : Nat) (acc : AoO Tm),
    addLets C (selDump P d) flow i r acc = addLets C d flow i r acc
  | [], _, _ => rfl
  | v :: r, i, acc => by
    simp only [addLets, byFlow_sel]
    split
    · rfl
    · cases d.byFlow (flow.take i) with
      | none => rfl
      | some a =>
        simp only [Option.map_some]
        have : addLet C acc (selAct P a) v = addLet C acc a v := rfl
        rw [this]
        congr 1
        funext acc
        exact addLets_sel C P d flow r (i + 1) acc

theorem sel_vars (P : String) (l : List JVar) : selL P (l.map .var) = l.map .var := by
  rw [selL_eq, List.map_map]
  exact List.map_congr_left fun v _ => rfl

theorem sel_query (P : String) (d : Dump) : sel P (queryTerm d) = queryTerm (selDump P d) := by
  have key : ∀ (l : List JT) (acc : JT), sel P (l.foldl (fun acc t => .app (.fun_ ⟨[], "&&"⟩) [acc, t]) acc) =
      (selL P l).foldl (fun acc t => .app (.fun_ ⟨[], "&&"⟩) [acc, t]) (sel P acc) := by
    intro l
    induction l with
    | nil => intro acc; rfl
    | cons t l ih => intro acc; simp only [List.foldl_cons, selL, ih]; rfl
  simp only [queryTerm, sel, selL, sel_vars, key]
  rfl

/-! ### Well-formed and supported files -/

section
variable (C : Ctx) (d : Dump) (Ps : List String)

/-- SPECIFICATION. The actions Squirrel produces: the indices are those of the control flow and none is a dummy,
conditions have no variables of their own, the terms are those of the systems `Ps`, the cells updated are the same
in all systems, and the first macro has no more inputs than the action has steps. -/
structure WfAct (a : JAct) : Prop where
  inv : a.indices = vars a.action
  dummy : ∀ v ∈ a.indices, v.name ≠ "$dummy"
  condVars : a.condVars = []
  cond : wf C Ps a.cond
  output : wf C Ps a.output
  updArgs : ∀ u ∈ a.updates, wfL C Ps u.args
  updCells : ∀ u ∈ a.updates, ∀ P ∈ Ps, ∀ t ∈ u.args, jvars (sel P t) = jvars t
  updBody : ∀ u ∈ a.updates, wf C Ps u.body
  inputs : ∀ m, firstMacro d a.globals = some m → m.inputs.length ≤ a.action.length + 1

/-- The terms and associated functions of a definition. -/
def WfDef : OpDef → Prop
  | .concrete _ body => wf C Ps body
  | .senc assoc => assoc ≠ []
  | .checkSign assoc => assoc ≠ []
  | _ => True

/-- The terms of a macro. -/
def WfMac : MacDef → Prop
  | .global _ _ _ body => wf C Ps body
  | _ => True

/-- SPECIFICATION. A file of the systems `Ps`. -/
structure WfDump : Prop where
  query : wf C Ps d.query
  hyps : wfL C Ps d.hyps
  actions : ∀ a ∈ d.actions, WfAct C d Ps a
  ops : ∀ e ∈ d.ops, WfDef C Ps e.2.defn
  macs : ∀ e ∈ d.macs, WfMac C Ps e.2

/-- A type the conversion supports. -/
def okTy (t : JTy) : Prop := (dTy C t).isSome

/-- SPECIFICATION. The supported actions: the types and terms are, and the prefixes of the control flow are those of
actions of the file. -/
structure SuppAct (a : JAct) : Prop where
  indices : ∀ v ∈ a.indices, okTy C v.sort
  cond : supp C a.cond
  output : supp C a.output
  updVars : ∀ u ∈ a.updates, ∀ t ∈ u.args, ∀ v ∈ jvars t, okTy C v.sort
  updArgs : ∀ u ∈ a.updates, suppL C u.args
  updBody : ∀ u ∈ a.updates, supp C u.body
  inputs : ∀ m, firstMacro d a.globals = some m → (∀ v ∈ m.inputs, okTy C v.sort) ∧
    ∀ i, i < m.inputs.length → (d.byFlow (a.action.take i)).isSome ∧ (C.macs ⟨[], "input"⟩).isSome

/-- The supported definitions. -/
def SuppDef : OpDef → Prop
  | .concrete args body => (∀ v ∈ args, okTy C v.sort) ∧ supp C body
  | _ => True

/-- The supported macros. -/
def SuppMac : MacDef → Prop
  | .global inputs indices ts body => (∀ v ∈ inputs ++ indices ++ [ts], okTy C v.sort) ∧ supp C body
  | .state sort vars => okTy C sort ∧ ∀ v ∈ vars, okTy C v.sort
  | _ => True

/-- SPECIFICATION. A file whose types and terms are all supported. -/
structure SuppDump : Prop where
  query : supp C d.query
  hyps : suppL C d.hyps
  vars : ∀ v ∈ d.vars, okTy C v.sort
  actions : ∀ a ∈ d.actions, SuppAct C d a
  names : ∀ e ∈ d.names, e.2.vars = [] → ∀ t ∈ declArgs e.2.args, okTy C t
  ops : ∀ e ∈ d.ops, SuppDef C e.2.defn ∧
    (e.2.sort.vars = [] → okTy C e.2.sort.out ∧ ∀ t ∈ declArgs e.2.sort.args, okTy C t)
  macs : ∀ e ∈ d.macs, SuppMac C e.2

end

/-! ### Variant by variant -/

section
variable {C : Ctx} {d : Dump} {Ps : List String} {S : Prop}

theorem repV_term (hn : 0 < Ps.length) (hP : Ps.Pairwise (· < ·)) {t : JT} (hw : wf C Ps t) (hs : S → supp C t) :
    RepV Ps.length S (convert C .any t) (fun i => convert C .any (sel (Ps.getD i "") t)) :=
  RepV.sub ((good C Ps hn hP t hw .any (Or.inl rfl)).mono hs) fun i y _ hy => single C .any _ y hy

theorem repV_ty {n : Nat} {t : JTy} (hs : S → okTy C t) : RepV n S (convTy C t) (fun _ => convTy C t) := by
  rw [convTy_eq]
  cases h : dTy C t with
  | none => exact fun s => by have := hs s; simp [okTy, h] at this
  | some s => exact repV_pure s

theorem repV_var {n : Nat} {v : JVar} (hs : S → okTy C v.sort) : RepV n S (bindVar C v) (fun _ => bindVar C v) := by
  simp only [bindVar, convTy_eq]
  cases h : dTy C v.sort with
  | none => exact fun s => by have := hs s; simp [okTy, h] at this
  | some s => exact repV_pure _

theorem repV_vars {n : Nat} {l : List JVar} (hs : S → ∀ v ∈ l, okTy C v.sort) :
    RepV n S (gather (l.map (bindVar C))) (fun _ => gather (l.map (bindVar C))) :=
  (RepL.map (f' := fun _ => bindVar C) fun v hv => repV_var fun s => hs s v hv).gather

theorem repV_tys {n : Nat} {l : List JTy} (hs : S → ∀ v ∈ l, okTy C v) :
    RepV n S (gather (l.map (convTy C))) (fun _ => gather (l.map (convTy C))) :=
  (RepL.map (f' := fun _ => convTy C) fun v hv => repV_ty fun s => hs s v hv).gather

theorem input_wf (Ps : List String) (a : JAct) : wf C Ps (inputAt a) := by
  simp only [inputAt, wf, wfL, JAct.asTerm, wfL_iff, List.mem_map]
  refine ⟨trivial, ?_⟩
  rintro t ⟨v, _, rfl⟩
  simp [wf]

theorem input_supp (a : JAct) (h : (C.macs ⟨[], "input"⟩).isSome) : supp C (inputAt a) := by
  simp only [inputAt, supp, suppL, JAct.asTerm, suppL_iff, List.mem_map]
  refine ⟨trivial, ?_, h⟩
  rintro t ⟨v, _, rfl⟩
  simp [supp]

theorem input_sel (P : String) (a : JAct) : sel P (inputAt a) = inputAt a := by
  simp only [inputAt, JAct.asTerm, sel, selL, sel_vars]

theorem bind_assoc {α β γ : Type} (x : Res α) (f : α → Res β) (g : β → Res γ) : (x.bind f).bind g = x.bind fun a => (f a).bind g := by
  cases x <;> rfl

theorem repV_lets (hn : 0 < Ps.length) (hP : Ps.Pairwise (· < ·)) (flow : AT (List JVar)) : ∀ (r : List JVar) (k : Nat)
    (hk : k + r.length ≤ flow.length + 1)
    (hs : S → (∀ v ∈ r, okTy C v.sort) ∧ ∀ i, i < k + r.length → k ≤ i → (d.byFlow (flow.take i)).isSome ∧ (C.macs ⟨[], "input"⟩).isSome)
    {x : Res (AoO Tm)} {x' : Nat → Res (AoO Tm)} (hx : RepV Ps.length S x x'),
    RepV Ps.length S (x.bind (addLets C d flow k r)) (fun i => (x' i).bind (addLets C d flow k r))
  | [], k, _, _, x, x', hx => by
    have e : ∀ y : Res (AoO Tm), y.bind (addLets C d flow k []) = y := fun y => by cases y <;> rfl
    simp only [e]
    exact hx
  | v :: r, k, hk, hs, x, x', hx => by
    simp only [List.length_cons] at hk hs
    have hlt : ¬ flow.length < k := by omega
    cases hb : d.byFlow (flow.take k) with
    | none =>
      have e : ∀ y : Res (AoO Tm), y.bind (addLets C d flow k (v :: r)) = y.bind fun _ => .err := fun y => by
        cases y with
        | ok a => simp only [Res.bind, addLets, if_neg hlt, hb]
        | err => rfl
        | panic => rfl
      simp only [e]
      have hns : ¬ S := fun s => by have := ((hs s).2 k (by omega) (Nat.le_refl k)).1; rw [hb] at this; cases this
      cases x with
      | ok a => exact hns
      | err => exact hns
      | panic => exact hx
    | some a =>
      have e : ∀ y : Res (AoO Tm), y.bind (addLets C d flow k (v :: r)) =
          (rbind y fun acc => rbind (convert C .any (inputAt a)) fun inp => rbind (convTy C v.sort) fun s =>
            rpure (.letin (C.san .variable v.name, s) inp acc)).bind (addLets C d flow (k + 1) r) := fun y => by
        cases y with
        | ok b => simp only [Res.bind, addLets, if_neg hlt, hb, addLet, rbind]
        | err => rfl
        | panic => rfl
      simp only [e]
      refine repV_lets hn hP flow r (k + 1) (by omega) (fun s => ⟨fun u hu => (hs s).1 u (by simp [hu]),
        fun i h1 h2 => (hs s).2 i (by omega) (by omega)⟩) ?_
      refine repV_bindS hn hx fun acc => ?_
      have hi := repV_term (S := S) hn hP (input_wf (C := C) Ps a) fun s => input_supp a ((hs s).2 k (by omega) (Nat.le_refl k)).2
      simp only [input_sel] at hi
      exact repV_bindS hn hi fun inp => repV_map hn _ (repV_ty fun s => (hs s).1 v (by simp))

theorem repV_prepare (hn : 0 < Ps.length) (hP : Ps.Pairwise (· < ·)) {flow : AT (List JVar)} {fst : Option MacDef} {t : JT}
    (hw : wf C Ps t) (hs : S → supp C t) (hi : ∀ m, fst = some m → m.inputs.length ≤ flow.length + 1)
    (hsi : S → ∀ m, fst = some m → (∀ v ∈ m.inputs, okTy C v.sort) ∧
      ∀ i, i < m.inputs.length → (d.byFlow (flow.take i)).isSome ∧ (C.macs ⟨[], "input"⟩).isSome) :
    RepV Ps.length S (prepare C d flow fst t)
      (fun i => prepare C (selDump (Ps.getD i "") d) flow (fst.map (selMac (Ps.getD i ""))) (sel (Ps.getD i "") t)) := by
  have e : ∀ i t, prepare C (selDump (Ps.getD i "") d) flow (fst.map (selMac (Ps.getD i ""))) t = prepare C d flow fst t := by
    intro i t
    simp only [prepare]
    congr 1
    funext t
    rw [addLets_sel]
    cases fst with
    | none => rfl
    | some m => simp only [Option.map_some, Option.getD_some, selMac_inputs]
  simp only [e]
  simp only [prepare]
  refine repV_bindS hn (repV_term hn hP hw hs) fun t => ?_
  have hl : ((fst.map MacDef.inputs).getD []).reverse.length ≤ flow.length + 1 := by
    cases fst with
    | none => simp
    | some m => simpa using hi m rfl
  have hlr := repV_lets (S := S) (C := C) (d := d) hn hP flow ((fst.map MacDef.inputs).getD []).reverse 0 (by omega) (fun s => by
    cases fst with
    | none => simp
    | some m =>
      obtain ⟨h1, h2⟩ := hsi s m rfl
      refine ⟨fun v hv => h1 v (by simpa using hv), fun i h3 _ => h2 i (by simpa using h3)⟩) (repV_pure (n := Ps.length) (S := S) t)
  exact hlr

theorem collect_ne_err {α : Type} : ∀ {rs : List (Res α)}, (∀ r ∈ rs, r ≠ .err) → Res.collect rs ≠ .err
  | [], _ => nofun
  | r :: rs, h => by
    simp only [Res.collect]
    have h1 := h r (by simp)
    have h2 := collect_ne_err (rs := rs) fun x hx => h x (by simp [hx])
    cases r with
    | err => exact absurd rfl h1
    | panic => nofun
    | ok a =>
      simp only [Res.bind]
      cases hc : Res.collect rs with
      | err => exact absurd hc h2
      | panic => nofun
      | ok l => nofun

theorem merge_ne_err : ∀ (l : List Shape) (s : Shape), AoO.mergeShapes s l ≠ .err
  | [], s => nofun
  | t :: r, s => by
    simp only [AoO.mergeShapes]
    cases s.tryMerge t with
    | none => nofun
    | some u => exact merge_ne_err r u

theorem column_ne_err {α : Type} (l : List (AoO α)) (i : Nat) : AoO.column l i ≠ .err := by
  refine collect_ne_err fun r hr => ?_
  obtain ⟨x, _, rfl⟩ := List.mem_map.1 hr
  simp only [AoO.ownedGet]
  cases x.get i <;> nofun

theorem transpose_ne_err {α : Type} (l : List (AoO α)) : AoO.transposeIter l ≠ .err := by
  simp only [AoO.transposeIter]
  cases hm : AoO.mergeShapes .any (l.map AoO.shape) with
  | err => exact absurd hm (merge_ne_err _ _)
  | panic => nofun
  | ok s =>
    cases s with
    | any =>
      simp only [Res.bind]
      cases hc : AoO.column l 0 with
      | err => exact absurd hc (column_ne_err _ _)
      | panic => nofun
      | ok l => nofun
    | one i =>
      simp only [Res.bind]
      cases hc : AoO.column l i with
      | err => exact absurd hc (column_ne_err _ _)
      | panic => nofun
      | ok l => nofun
    | all n =>
      simp only [Res.bind]
      cases hc : Res.collect ((List.range n).map (AoO.column l)) with
      | err =>
        exact absurd hc (collect_ne_err fun r hr => by obtain ⟨i, _, rfl⟩ := List.mem_map.1 hr; exact column_ne_err _ _)
      | panic => nofun
      | ok l => nofun

/-- Results collected first and transposed in the middle of what follows. -/
theorem repV_collect {α β : Type} {n : Nat} {rs : List (Res (AoO α))} {rs' : Nat → List (Res (AoO α))} (h : RepL n S rs rs')
    {F : Res (AoO (List α)) → Res (AoO β)} {F' : Nat → Res (AoO (List α)) → Res (AoO β)}
    (hF : ∀ X X', RepV n S X X' → RepV n S (F X) (fun i => F' i (X' i))) :
    RepV n S ((Res.collect rs).bind fun l => F (AoO.transposeIter l))
      (fun i => (Res.collect (rs' i)).bind fun l => F' i (AoO.transposeIter l)) := by
  have hg := h.gather
  cases hc : Res.collect rs with
  | err => simp only [gather, hc] at hg; exact hg
  | panic => simp only [gather, hc] at hg; exact hg
  | ok l =>
    have hX : RepV n S (AoO.transposeIter l) (fun i => gather (rs' i)) := by simpa only [gather, hc, Res.bind] using hg
    cases ht : AoO.transposeIter l with
    | err => exact absurd ht (transpose_ne_err l)
    | panic => rw [ht] at hX; exact hX.elim
    | ok r =>
      rw [ht] at hX
      have := hF _ _ hX
      simp only [Res.bind, ht]
      refine this.congr fun i hi => ?_
      obtain ⟨y, _, hy⟩ := hX.2 i hi
      have hy := val_some hy
      simp only [gather] at hy
      simp only [gather]
      cases hi : Res.collect (rs' i) with
      | err => rw [hi] at hy; simp [Res.bind] at hy
      | panic => rw [hi] at hy; simp [Res.bind] at hy
      | ok l' => rfl

theorem repL_terms (hn : 0 < Ps.length) (hP : Ps.Pairwise (· < ·)) {l : List JT} (hw : wfL C Ps l) (hs : S → suppL C l) :
    RepL Ps.length S (convertL C .any l) (fun i => convertL C .any (selL (Ps.getD i "") l)) := by
  have := RepL.map (f' := fun i t => convert C .any (sel (Ps.getD i "") t)) (l := l)
    fun t ht => repV_term (S := S) hn hP ((wfL_iff C Ps l).1 hw t ht) fun s => (suppL_iff C l).1 (hs s) t ht
  obtain ⟨es, h1, h2, h3⟩ := this
  exact ⟨es, by rw [convertL_eq]; exact h1, fun i => by simp only [convertL_eq, selL_eq, List.map_map]; exact h2 i, h3⟩

theorem repL_vars {n : Nat} {l : List JVar} (hs : S → ∀ v ∈ l, okTy C v.sort) :
    RepL n S (l.map (bindVar C)) (fun _ => l.map (bindVar C)) :=
  RepL.map (f' := fun _ => bindVar C) fun v hv => repV_var fun s => hs s v hv

theorem fresh_sel {indices : List JVar} {args : List JT} {P : String} (h : ∀ t ∈ args, jvars (sel P t) = jvars t) :
    freshVars indices (selL P args) = freshVars indices args := by
  have : (args.map (sel P)).flatMap jvars = args.flatMap jvars := by
    induction args with
    | nil => rfl
    | cons t r ih =>
      simp only [List.map_cons, List.flatMap_cons, h t (by simp), ih fun u hu => h u (by simp [hu])]
  simp only [freshVars, selL_eq, this]

theorem repV_upd (hn : 0 < Ps.length) (hP : Ps.Pairwise (· < ·)) {indices : List JVar} {u : Upd} (hw : wfL C Ps u.args)
    (hb : wf C Ps u.body) (hc : ∀ P ∈ Ps, ∀ t ∈ u.args, jvars (sel P t) = jvars t)
    (hs : S → suppL C u.args ∧ supp C u.body ∧ ∀ t ∈ u.args, ∀ v ∈ jvars t, okTy C v.sort) :
    RepV Ps.length S (convUpd C indices u) (fun i => convUpd C indices (selUpd (Ps.getD i "") u)) := by
  have hv : S → ∀ v ∈ freshVars indices u.args, okTy C v.sort := fun s v hv => by
    simp only [freshVars, List.mem_filter, List.mem_flatMap] at hv
    obtain ⟨⟨t, ht, hv⟩, _⟩ := hv
    exact (hs s).2.2 t ht v hv
  have := repV_collect (n := Ps.length) (repL_vars (C := C) hv)
    (F := fun X => rbind (gather (convertL C .any u.args)) fun args => rbind X fun fresh =>
      rbind (convert C .any u.body) fun t =>
        rpure (Asg.mk (if fresh.isEmpty then none else some fresh) (.app (C.san .mac u.symb.toStr) args) t))
    (F' := fun i X => rbind (gather (convertL C .any (selL (Ps.getD i "") u.args))) fun args => rbind X fun fresh =>
      rbind (convert C .any (sel (Ps.getD i "") u.body)) fun t =>
        rpure (Asg.mk (if fresh.isEmpty then none else some fresh) (.app (C.san .mac u.symb.toStr) args) t))
    fun X X' hX => repV_bindS hn (repL_terms hn hP hw fun s => (hs s).1).gather fun args => repV_bindS hn hX fun fresh =>
      repV_map hn _ (repV_term hn hP hb fun s => (hs s).2.1)
  refine this.congr fun i hi => ?_
  have hm : Ps.getD i "" ∈ Ps := by simp [List.getD, List.getElem?_eq_getElem hi]
  simp only [convUpd, selUpd, fresh_sel (hc _ hm)]

theorem repV_step (hn : 0 < Ps.length) (hP : Ps.Pairwise (· < ·)) {a : JAct} (hw : WfAct C d Ps a) (hs : S → SuppAct C d a) :
    RepV Ps.length S (convStep C d a) (fun i => convStep C (selDump (Ps.getD i "") d) (selAct (Ps.getD i "") a)) := by
  have hU : RepL Ps.length S (a.updates.map (convUpd C a.indices))
      (fun i => (a.updates.map (selUpd (Ps.getD i ""))).map (convUpd C a.indices)) := by
    have := RepL.map (f' := fun i u => convUpd C a.indices (selUpd (Ps.getD i "") u)) (l := a.updates)
      fun u hu => repV_upd (S := S) (indices := a.indices) hn hP (hw.updArgs u hu) (hw.updBody u hu) (hw.updCells u hu)
        fun s => ⟨(hs s).updArgs u hu, (hs s).updBody u hu, (hs s).updVars u hu⟩
    simpa only [List.map_map, Function.comp_def] using this
  have hp : ∀ {t}, wf C Ps t → (S → supp C t) → _ := fun {t} h1 h2 => repV_prepare (S := S) (C := C) (d := d) (flow := a.action)
    (fst := firstMacro d a.globals) (t := t) hn hP h1 h2 hw.inputs fun s => (hs s).inputs
  have h1 := hp hw.output fun s => (hs s).output
  have h2 := hp hw.cond fun s => (hs s).cond
  have := repV_collect (n := Ps.length) (repL_vars (C := C) (l := a.indices) (S := S) fun s => (hs s).indices)
    (F := fun args => (Res.collect (a.updates.map (convUpd C a.indices))).bind fun asgs =>
        rbind (prepare C d a.action (firstMacro d a.globals) a.output) fun msg =>
          rbind (prepare C d a.action (firstMacro d a.globals) a.cond) fun cond =>
            rbind (AoO.transposeIter asgs) fun asgs => rbind args fun args =>
              rpure (Stm.step (C.san .step a.name.toStr) args cond msg (some asgs) []))
    (F' := fun i args => (Res.collect ((a.updates.map (selUpd (Ps.getD i ""))).map (convUpd C a.indices))).bind fun asgs =>
        rbind (prepare C (selDump (Ps.getD i "") d) a.action ((firstMacro d a.globals).map (selMac (Ps.getD i "")))
            (sel (Ps.getD i "") a.output)) fun msg =>
          rbind (prepare C (selDump (Ps.getD i "") d) a.action ((firstMacro d a.globals).map (selMac (Ps.getD i "")))
            (sel (Ps.getD i "") a.cond)) fun cond =>
            rbind (AoO.transposeIter asgs) fun asgs => rbind args fun args =>
              rpure (Stm.step (C.san .step a.name.toStr) args cond msg (some asgs) []))
    fun X X' hX => repV_collect hU
      (F := fun asgs => rbind (prepare C d a.action (firstMacro d a.globals) a.output) fun msg =>
          rbind (prepare C d a.action (firstMacro d a.globals) a.cond) fun cond =>
            rbind asgs fun asgs => rbind X fun args =>
              rpure (Stm.step (C.san .step a.name.toStr) args cond msg (some asgs) []))
      (F' := fun i asgs => rbind (prepare C (selDump (Ps.getD i "") d) a.action ((firstMacro d a.globals).map (selMac (Ps.getD i "")))
            (sel (Ps.getD i "") a.output)) fun msg =>
          rbind (prepare C (selDump (Ps.getD i "") d) a.action ((firstMacro d a.globals).map (selMac (Ps.getD i "")))
            (sel (Ps.getD i "") a.cond)) fun cond =>
            rbind asgs fun asgs => rbind (X' i) fun args =>
              rpure (Stm.step (C.san .step a.name.toStr) args cond msg (some asgs) []))
      fun Y Y' hY => repV_bindS hn h1 fun msg => repV_bindS hn h2 fun cond => repV_bindS hn hY fun asgs => repV_map hn _ hX
  have hcv : (!a.condVars.isEmpty) = false := by rw [hw.condVars]; rfl
  have e1 : convStep C d a = (Res.collect (a.indices.map (bindVar C))).bind fun args =>
      (Res.collect (a.updates.map (convUpd C a.indices))).bind fun asgs =>
        rbind (prepare C d a.action (firstMacro d a.globals) a.output) fun msg =>
          rbind (prepare C d a.action (firstMacro d a.globals) a.cond) fun cond =>
            rbind (AoO.transposeIter asgs) fun asgs => rbind (AoO.transposeIter args) fun args =>
              rpure (Stm.step (C.san .step a.name.toStr) args cond msg (some asgs) []) := by
    simp only [convStep, hcv, Bool.false_eq_true, if_false]
  rw [e1]
  refine this.congr fun i hi => ?_
  simp only [convStep, selAct, hcv, Bool.false_eq_true, if_false, firstMacro_sel]

theorem repV_concrete (hn : 0 < Ps.length) (hP : Ps.Pairwise (· < ·)) {p : Path} {args : List JVar} {body : JT} (hw : wf C Ps body)
    (hs : S → (∀ v ∈ args, okTy C v.sort) ∧ supp C body) :
    RepV Ps.length S (convConcrete C p args body) (fun i => convConcrete C p args (sel (Ps.getD i "") body)) :=
  repV_bindS hn (repV_vars fun s => (hs s).1) fun args => repV_map hn _ (repV_term hn hP hw fun s => (hs s).2)

theorem transpose_some {α : Type} (x : Res (AoO α)) : transposeRaov (rbind x fun s => rpure (some s)) = some x := by
  match x with
  | .err => rfl
  | .panic => rfl
  | .ok (.any a) => rfl
  | .ok (.one i a) => simp [rbind, Res.bind, AoO.bind, rpure, AoO.ownedGet, AoO.get, transposeRaov, AoO.transposeOpt]
  | .ok (.all l) =>
    have key : ∀ (l : List α) (i : Nat), AoO.goAll (fun s => rpure (some s)) i l = .ok (l.map some) := by
      intro l
      induction l with
      | nil => intro i; rfl
      | cons a l ih => intro i; simp only [AoO.goAll, ih]; rfl
    have hm : ∀ l : List α, (l.map some).mapM id = some l := by
      intro l
      induction l with
      | nil => rfl
      | cons a l ih => simp [List.mapM_cons, ih]
    simp [rbind, Res.bind, AoO.bind, key, transposeRaov, AoO.transposeOpt, hm]

theorem repV_mac (hn : 0 < Ps.length) (hP : Ps.Pairwise (· < ·)) {e : Path × MacDef} (hw : WfMac C Ps e.2) (hs : S → SuppMac C e.2) :
    (transposeRaov (convMacro C e) = none ∧ ∀ i, transposeRaov (convMacro C (e.1, selMac (Ps.getD i "") e.2)) = none) ∨
    ∃ x x', transposeRaov (convMacro C e) = some x ∧
      (∀ i, transposeRaov (convMacro C (e.1, selMac (Ps.getD i "") e.2)) = some (x' i)) ∧ RepV Ps.length S x x' := by
  obtain ⟨p, m⟩ := e
  cases m with
  | protocol => exact Or.inl ⟨rfl, fun _ => rfl⟩
  | structured => exact Or.inl ⟨rfl, fun _ => rfl⟩
  | state s v => exact Or.inl ⟨rfl, fun _ => rfl⟩
  | global inputs indices ts body =>
    refine Or.inr ⟨_, _, ?_, fun i => ?_, repV_concrete (p := p) (args := indices ++ (inputs.filter fun v => !v.dummy) ++ [ts])
      hn hP hw fun s => ?_⟩
    · exact transpose_some _
    · exact transpose_some _
    · obtain ⟨h1, h2⟩ := hs s
      refine ⟨fun v hv => h1 v ?_, h2⟩
      simp only [List.mem_append, List.mem_filter] at hv ⊢
      rcases hv with (hv | hv) | hv
      · exact Or.inl (Or.inr hv)
      · exact Or.inl (Or.inl hv.1)
      · exact Or.inr hv

theorem repL_macros (hn : 0 < Ps.length) (hP : Ps.Pairwise (· < ·)) (hw : WfDump C d Ps) (hs : S → SuppDump C d) :
    RepL Ps.length S (mkMacros C d) (fun i => mkMacros C (selDump (Ps.getD i "") d)) := by
  have h1 := RepL.filterMap (S := S) (f := fun e => transposeRaov (convMacro C e))
    (f' := fun i e => transposeRaov (convMacro C (e.1, selMac (Ps.getD i "") e.2))) (l := d.macs)
    fun e he => repV_mac hn hP (hw.macs e he) fun s => (hs s).macs e he
  have h2 := RepL.filterMap (n := Ps.length) (S := S) (f := fun e : Path × OpData => match e.2.defn with
      | .concrete args body => some (convConcrete C e.1 args body)
      | _ => none)
    (f' := fun i e => match selDef (Ps.getD i "") e.2.defn with
      | .concrete args body => some (convConcrete C e.1 args body)
      | _ => none) (l := d.ops) fun e he => by
        have hw := hw.ops e he
        have hs : S → SuppDef C e.2.defn := fun s => ((hs s).ops e he).1
        obtain ⟨p, o, df⟩ := e
        cases df with
        | concrete args body => exact Or.inr ⟨_, _, rfl, fun i => rfl, repV_concrete hn hP hw hs⟩
        | hash _ => exact Or.inl ⟨rfl, fun _ => rfl⟩
        | senc _ => exact Or.inl ⟨rfl, fun _ => rfl⟩
        | checkSign _ => exact Or.inl ⟨rfl, fun _ => rfl⟩
        | other _ => exact Or.inl ⟨rfl, fun _ => rfl⟩
  have := h1.append h2
  simp only [mkMacros, selDump, List.filterMap_map, Function.comp_def]
  exact this

theorem repL_cells (hn : 0 < Ps.length) (hs : S → SuppDump C d) :
    RepL Ps.length S (mkCells C d) (fun i => mkCells C (selDump (Ps.getD i "") d)) := by
  simp only [mkCells, selDump, List.filterMap_map, Function.comp_def]
  refine RepL.filterMap fun e he => ?_
  have hs : S → SuppMac C e.2 := fun s => (hs s).macs e he
  obtain ⟨p, m⟩ := e
  cases m with
  | protocol => exact Or.inl ⟨rfl, fun _ => rfl⟩
  | structured => exact Or.inl ⟨rfl, fun _ => rfl⟩
  | global _ _ _ _ => exact Or.inl ⟨rfl, fun _ => rfl⟩
  | state sort vars =>
    refine Or.inr ⟨_, _, rfl, fun i => rfl, repV_bindS hn (repV_ty fun s => (hs s).1) fun t => repV_map hn _ ?_⟩
    have := repV_tys (n := Ps.length) (S := S) (C := C) (l := vars.map (·.sort)) fun s v hv => by
      obtain ⟨w, hw, rfl⟩ := List.mem_map.1 hv
      exact (hs s).2 w hw
    simpa only [List.map_map, Function.comp_def] using this

theorem repV_decl {n : Nat} (hn : 0 < n) {symb : String} {args : List JTy} {out : JTy} (h1 : S → okTy C out)
    (h2 : S → ∀ t ∈ declArgs args, okTy C t) : RepV n S (declFun C symb args out) (fun _ => declFun C symb args out) :=
  repV_bindS hn (repV_ty h1) fun s => repV_map hn _ (repV_tys h2)

theorem isConcrete_sel (P : String) (o : OpDef) : (selDef P o).isConcrete = o.isConcrete := by cases o <;> rfl

theorem repL_funs (hn : 0 < Ps.length) (hs : S → SuppDump C d) :
    RepL Ps.length S (mkFuns C d) (fun i => mkFuns C (selDump (Ps.getD i "") d)) := by
  simp only [mkFuns, selDump, List.filterMap_map, Function.comp_def, isConcrete_sel]
  refine RepL.append (RepL.filterMap (f' := fun _ => _) fun e he => ?_) (RepL.filterMap (f' := fun _ => _) fun e he => ?_)
  · by_cases h : e.2.vars.isEmpty = true
    · simp only [if_pos h]
      exact Or.inr ⟨_, _, rfl, fun _ => rfl, repV_decl hn (fun _ => rfl) fun s => (hs s).names e he (by simpa using h)⟩
    · simp only [if_neg h]
      exact Or.inl ⟨trivial, fun _ => trivial⟩
  · by_cases hf : (forbidden.contains e.1.toStr || builtinOps.contains e.1.toStr) = true
    · simp only [if_pos hf]
      exact Or.inl ⟨trivial, fun _ => trivial⟩
    · simp only [if_neg hf]
      by_cases hc : e.2.defn.isConcrete = true
      · simp only [if_pos hc]
        exact Or.inl ⟨trivial, fun _ => trivial⟩
      · simp only [if_neg hc]
        by_cases h : e.2.sort.vars.isEmpty = true
        · simp only [if_pos h]
          have h' : e.2.sort.vars = [] := by simpa using h
          exact Or.inr ⟨_, _, rfl, fun _ => rfl, repV_decl hn (fun s => (((hs s).ops e he).2 h').1) fun s => (((hs s).ops e he).2 h').2⟩
        · simp only [if_neg h]
          exact Or.inl ⟨trivial, fun _ => trivial⟩

theorem mkOrd_cases (vs : List JVar) (t1 t2 : Tm) (k : OrdKind) :
    (mkOrd C vs t1 t2 k = .err ∧ ∃ v ∈ vs, dTy C v.sort = none) ∨ ∃ o, mkOrd C vs t1 t2 k = .ok o := by
  rw [mkOrd_eq]
  cases h : seqOpt (vs.map (bnd C)) with
  | some bs => exact Or.inr ⟨_, rfl⟩
  | none =>
    refine Or.inl ⟨rfl, ?_⟩
    induction vs with
    | nil => simp [seqOpt] at h
    | cons v vs ih =>
      simp only [List.map_cons] at h
      cases hv : bnd C v with
      | none =>
        refine ⟨v, by simp, ?_⟩
        simpa [bnd] using hv
      | some b =>
        rw [hv] at h
        simp only [seqOpt, Option.map_eq_none_iff] at h
        obtain ⟨w, hw, hn⟩ := ih h
        exact ⟨w, by simp [hw], hn⟩

theorem pair_cases {a b : Act} (ha : a.inv) (hb : b.inv) (hd : ∀ v ∈ b.indices, v.name ≠ "$dummy") :
    (pairLemma C a b = .err ∧ ∃ v ∈ a.indices ++ b.indices, dTy C v.sort = none) ∨ ∃ o, pairLemma C a b = .ok o := by
  cases h1 : depends a.action b.action with
  | some o =>
    have key : ∀ x y : Act, x.inv → y.inv → x.action <+: y.action → ¬ y.indices.length < x.indices.length := by
      intro x y hx hy hp
      have : x.indices <+: y.indices := by rw [hx, hy]; exact vars_prefix hp
      have := this.length_le
      omega
    cases o with
    | true =>
      have hp := (C38_depends_iff a.action b.action).1.1 h1
      simp only [pairLemma, dependsLemma, h1, if_true, if_neg (key a b ha hb hp.1)]
      rcases mkOrd_cases (C := C) b.indices (stepTm C a.name a.indices) (stepTm C b.name b.indices) .lt with ⟨h, v, hv, hn⟩ | ⟨o, h⟩
      · left; simp only [h, Res.map, Res.bind]; exact ⟨trivial, v, by simp [hv], hn⟩
      · right; simp [h, Res.map, Res.bind]
    | false =>
      have hp := (C38_depends_iff a.action b.action).2.1.1 h1
      simp only [pairLemma, dependsLemma, h1, Bool.false_eq_true, if_false, if_neg (key b a hb ha hp.1)]
      rcases mkOrd_cases (C := C) a.indices (stepTm C b.name b.indices) (stepTm C a.name a.indices) .lt with ⟨h, v, hv, hn⟩ | ⟨o, h⟩
      · left; simp only [h, Res.map, Res.bind]; exact ⟨trivial, v, by simp [hv], hn⟩
      · right; simp [h, Res.map, Res.bind]
  | none =>
    cases h2 : mutexVars (shapeOf a.action) (shapeOf b.action) with
    | none => exact Or.inr ⟨none, C38_no_lemma C h1 h2⟩
    | some i =>
      obtain ⟨w1, w2, hne⟩ := mutex_widths h2
      rw [← ha] at w1
      rw [← hb] at w2
      obtain ⟨l, hl1, hl2, hl3, hl4⟩ := renameAll_spec (b.indices.drop i) (a.indices.map (·.name))
        (fun v hv => hd v (List.mem_of_mem_drop hv))
      have hab : ¬ (a = b ∧ a.indices.length = i) := fun e => hne (by rw [e.1])
      have hlen : ¬ (a.indices.length < i ∨ b.indices.length < i) := by omega
      simp only [pairLemma, dependsLemma, h1, Res.bind, mutexLemma, h2, if_neg hab, if_neg hlen, hl1]
      rcases mkOrd_cases (C := C) (a.indices ++ l) (stepTm C a.name a.indices) (stepTm C b.name (a.indices.take i ++ l)) .incompatible
        with ⟨h, v, hv, hn⟩ | ⟨o, h⟩
      · left
        simp only [h, Res.map]
        refine ⟨trivial, ?_⟩
        rcases List.mem_append.1 hv with hv | hv
        · exact ⟨v, by simp [hv], hn⟩
        · have : v.sort ∈ (b.indices.drop i).map (·.sort) := hl2 ▸ List.mem_map_of_mem hv
          obtain ⟨w, hw, hws⟩ := List.mem_map.1 this
          exact ⟨w, List.mem_append_right _ (List.mem_of_mem_drop hw), by rw [hws]; exact hn⟩
      · right; simp [h, Res.map]

theorem repL_orders (hw : WfDump C d Ps) (hs : S → SuppDump C d) :
    RepL Ps.length S (mkOrders C d) (fun i => mkOrders C (selDump (Ps.getD i "") d)) := by
  have e : ∀ P, (selDump P d).actions.map JAct.act = d.actions.map JAct.act := fun P => by
    simp only [selDump, List.map_map]; rfl
  simp only [mkOrders, e]
  refine RepL.map (f' := fun _ => _) fun r hr => ?_
  simp only [orderLemmas, List.mem_filterMap] at hr
  obtain ⟨⟨a, b⟩, hab, hr⟩ := hr
  have hmem : ∀ x ∈ [a, b], ∃ j ∈ d.actions, x = j.act := by
    intro x hx
    have := ((mem_pairs a b _).1 hab).subset hx
    simp only [List.mem_filter, List.mem_map] at this
    obtain ⟨⟨j, hj, rfl⟩, _⟩ := this
    exact ⟨j, hj, rfl⟩
  obtain ⟨ja, hja, rfl⟩ := hmem a (by simp)
  obtain ⟨jb, hjb, rfl⟩ := hmem b (by simp)
  rcases pair_cases (C := C) (a := ja.act) (b := jb.act) (hw.actions ja hja).inv (hw.actions jb hjb).inv (hw.actions jb hjb).dummy with
    ⟨h, v, hv, hn⟩ | ⟨o, h⟩
  · simp only [h, Option.some.injEq] at hr
    subst hr
    intro s
    have : okTy C v.sort := by
      rcases List.mem_append.1 hv with hv | hv
      · exact ((hs s).actions ja hja).indices v hv
      · exact ((hs s).actions jb hjb).indices v hv
    simp [okTy, hn] at this
  · cases o with
    | none => simp [h] at hr
    | some o =>
      simp only [h, Option.some.injEq] at hr
      subst hr
      exact repV_pure _

theorem crypto_sel (P : String) (p : Path) (o : OpDef) : cryptoOf C p (selDef P o) = cryptoOf C p o := by cases o <;> rfl

theorem repL_crypto (hw : WfDump C d Ps) :
    RepL Ps.length S (mkCrypto C d) (fun i => mkCrypto C (selDump (Ps.getD i "") d)) := by
  have e : ∀ P, mkCrypto C (selDump P d) = mkCrypto C d := fun P => by
    simp only [mkCrypto, selDump, List.flatMap_map, crypto_sel]
  simp only [e]
  have key : ∃ l : List Stm, mkCrypto C d = l.map rpure := by
    have h1 : ∀ (ops : List (Path × OpData)), (∀ e ∈ ops, WfDef C Ps e.2.defn) →
        ∃ l : List Stm, (ops.flatMap fun e => spread (cryptoOf C e.1 e.2.defn)) = l.map rpure := by
      intro ops
      induction ops with
      | nil => intro _; exact ⟨[], rfl⟩
      | cons e ops ih =>
        intro h
        obtain ⟨l, hl⟩ := ih fun x hx => h x (by simp [hx])
        have he : ∃ m, cryptoOf C e.1 e.2.defn = .ok m := by
          have := h e (by simp)
          obtain ⟨p, o, df⟩ := e
          cases df with
          | hash _ => exact ⟨_, rfl⟩
          | other _ => exact ⟨_, rfl⟩
          | concrete _ _ => exact ⟨_, rfl⟩
          | senc as => cases as with
            | nil => exact absurd rfl this
            | cons x l => exact ⟨_, rfl⟩
          | checkSign as => cases as with
            | nil => exact absurd rfl this
            | cons x l => exact ⟨_, rfl⟩
        obtain ⟨m, hm⟩ := he
        exact ⟨m ++ l, by rw [List.flatMap_cons, hl, hm, List.map_append]; rfl⟩
    obtain ⟨l, hl⟩ := h1 d.ops hw.ops
    exact ⟨["nonce", "memory_cell", "unfolding"].map (fun s => Stm.crypto s [] []) ++ l, by
      simp only [mkCrypto, hl, List.map_append, List.map_map]; rfl⟩
  obtain ⟨l, hl⟩ := key
  rw [hl]
  exact RepL.same l

theorem hyp_not_if : C.san .function (Path.toStr ⟨[], "&&"⟩) ≠ "if" ∧ C.san .function (Path.toStr ⟨[], "=>"⟩) ≠ "if" ∧
    C.san .function (Path.toStr ⟨[], "true"⟩) ≠ "if" := by
  have h : ∀ a b : String, remap a = some b → b ≠ "if" → C.san .function a ≠ "if" := fun a b h hb => by
    simp only [Ctx.san, sanitize, h]; exact hb
  exact ⟨h _ "and" (by decide) (by decide), h _ "=>" (by decide) (by decide), h _ "true" (by decide) (by decide)⟩

theorem hyps_ok (Ps : List String) : ∀ (l : List JT) (f : Path) (as : List JT), wfL C Ps l → wf C Ps (.app (.fun_ f) as) →
    ∃ g bs, l.foldl (fun acc t => .app (.fun_ ⟨[], "&&"⟩) [acc, t]) (JT.app (.fun_ f) as) = .app (.fun_ g) bs ∧
      wf C Ps (.app (.fun_ g) bs)
  | [], f, as, _, h => ⟨f, as, rfl, h⟩
  | t :: l, f, as, hl, h => by
    simp only [List.foldl_cons]
    refine hyps_ok Ps l _ _ hl.2 ?_
    rw [wf]
    exact ⟨⟨h, hl.1, trivial⟩, fun _ => trivial⟩

theorem hyps_supp : ∀ (l : List JT) (acc : JT), suppL C l → supp C acc →
    supp C (l.foldl (fun acc t => .app (.fun_ ⟨[], "&&"⟩) [acc, t]) acc)
  | [], acc, _, h => h
  | t :: l, acc, hl, h => by
    rw [List.foldl_cons]
    refine hyps_supp l _ hl.2 ?_
    rw [supp]
    exact ⟨⟨h, hl.1, trivial⟩, fun e => absurd e hyp_not_if.1⟩

theorem query_wf (hw : WfDump C d Ps) : wf C Ps (queryTerm d) := by
  obtain ⟨f, as, h1, h2⟩ := hyps_ok (C := C) Ps d.hyps ⟨[], "true"⟩ [] hw.hyps (by rw [wf]; exact ⟨trivial, fun _ => trivial⟩)
  rw [queryTerm]
  erw [h1]
  rw [wf, wf]
  exact ⟨⟨h2, hw.query, trivial⟩, fun _ => trivial⟩

theorem query_supp (hs : SuppDump C d) : supp C (queryTerm d) := by
  simp only [queryTerm, supp]
  refine ⟨Or.inl trivial, ⟨⟨?_, hs.query, trivial⟩, fun e => absurd e hyp_not_if.2.1⟩, fun v hv => ?_⟩
  · exact hyps_supp _ _ hs.hyps (by rw [supp]; exact ⟨trivial, fun e => absurd e hyp_not_if.2.2⟩)
  · obtain ⟨w, hw, rfl⟩ := List.mem_map.1 hv
    have := hs.vars w hw
    simp only [okBind, dBind, okTy, Option.isSome_iff_exists] at this ⊢
    obtain ⟨x, hx⟩ := this
    simp [hx]

theorem repV_query (hn : 0 < Ps.length) (hP : Ps.Pairwise (· < ·)) (hw : WfDump C d Ps) (hs : S → SuppDump C d) :
    RepV Ps.length S (mkQuery C d) (fun i => mkQuery C (selDump (Ps.getD i "") d)) := by
  have := repV_map hn (fun t => Stm.assert .query t []) (repV_term (S := S) hn hP (query_wf hw) fun s => query_supp (hs s))
  simp only [sel_query] at this
  exact this

theorem repL_all (hn : 0 < Ps.length) (hP : Ps.Pairwise (· < ·)) (hw : WfDump C d Ps) (hs : S → SuppDump C d) :
    RepL Ps.length S (allStms C d) (fun i => allStms C (selDump (Ps.getD i "") d)) := by
  have hT : RepL Ps.length S (mkTypes C d) (fun i => mkTypes C (selDump (Ps.getD i "") d)) := RepL.same _
  have hA : RepL (α := Stm) Ps.length S mkAsserts (fun _ => mkAsserts) := by
    have := RepL.same (n := Ps.length) (S := S) (pairAxioms.map fun t => Stm.assert .assert t [])
    rw [List.map_map] at this
    exact this
  have hS : RepL Ps.length S (mkSteps C d) (fun i => mkSteps C (selDump (Ps.getD i "") d)) := by
    have := RepL.map (S := S) (f := convStep C d)
      (f' := fun i a => convStep C (selDump (Ps.getD i "") d) (selAct (Ps.getD i "") a)) (l := d.actions)
      fun a ha => repV_step hn hP (hw.actions a ha) fun s => (hs s).actions a ha
    have e : ∀ i, mkSteps C (selDump (Ps.getD i "") d) =
        d.actions.map fun a => convStep C (selDump (Ps.getD i "") d) (selAct (Ps.getD i "") a) := fun i => by
      simp only [mkSteps]
      conv => lhs; arg 2; rw [show (selDump (Ps.getD i "") d).actions = d.actions.map (selAct (Ps.getD i "")) from rfl]
      rw [List.map_map]
      rfl
    simp only [e]
    exact this
  have hQ : RepL Ps.length S [mkQuery C d] (fun i => [mkQuery C (selDump (Ps.getD i "") d)]) :=
    ⟨[(_, _)], rfl, fun _ => rfl, fun e he => by
      rw [List.mem_singleton.1 he]; exact repV_query hn hP hw hs⟩
  exact (((((((hT.append (repL_cells hn hs)).append (repL_funs hn hs)).append (repL_macros hn hP hw hs)).append hA).append hS).append
    (repL_orders hw hs)).append (repL_crypto hw)).append hQ

end

/-! ### C77: the problems of a file of several systems -/

theorem rep_dump (alnum : Char → Bool) {d : Dump} {Ps : List String} (hn : 0 < Ps.length) (hP : Ps.Pairwise (· < ·))
    (hw : WfDump (d.ctx alnum) d Ps) :
    RepV Ps.length (SuppDump (d.ctx alnum) d) (convDump alnum d) (fun i => convDump alnum (selDump (Ps.getD i "") d)) := by
  have := (repL_all hn hP hw id).gather
  simp only [convDump, ctx_sel]
  exact this

/-- The `i`-th problem made of a file of several systems is the problem made of the file of the `i`-th system. -/
theorem C77_projection (alnum : Char → Bool) {d : Dump} {Ps : List String} (hn : 0 < Ps.length) (hP : Ps.Pairwise (· < ·))
    (hw : WfDump (d.ctx alnum) d Ps) {r : AoO (List Stm)} (hr : convDump alnum d = .ok r) (i : Nat) (hi : i < Ps.length) :
    ∃ x, r.get i = some x ∧ convDump alnum (selDump Ps[i] d) = .ok (.any x) := by
  have h := rep_dump alnum hn hP hw
  rw [hr] at h
  obtain ⟨x, hx1, hx2⟩ := h.2 i hi
  have e : Ps.getD i "" = Ps[i] := by simp [List.getD, List.getElem?_eq_getElem hi]
  simp only [e] at hx2
  exact ⟨x, hx1, val_some hx2⟩

/-- A supported file gives problems: a single one, for all systems, or one for each. -/
theorem C77_total (alnum : Char → Bool) {d : Dump} {Ps : List String} (hn : 0 < Ps.length) (hP : Ps.Pairwise (· < ·))
    (hw : WfDump (d.ctx alnum) d Ps) (hs : SuppDump (d.ctx alnum) d) :
    ∃ r, convDump alnum d = .ok r ∧ (r.toList.length = 1 ∧ (∀ i, r.get i = r.get 0) ∨ r.toList.length = Ps.length ∧
      ∀ i, r.get i = r.toList[i]?) := by
  have h := rep_dump alnum hn hP hw
  cases hr : convDump alnum d with
  | err => rw [hr] at h; exact absurd hs h
  | panic => rw [hr] at h; exact h.elim
  | ok r =>
    rw [hr] at h
    refine ⟨r, rfl, ?_⟩
    cases r with
    | any x => exact Or.inl ⟨rfl, fun _ => rfl⟩
    | one i x => rcases h.1 with h | h <;> simp [AoO.shape] at h
    | all l =>
      refine Or.inr ⟨?_, fun _ => rfl⟩
      rcases h.1 with h | h <;> simp [AoO.shape] at h
      exact h

/-- Whether or not it is supported, a file never makes the conversion panic. -/
theorem C77_no_panic (alnum : Char → Bool) {d : Dump} {Ps : List String} (hn : 0 < Ps.length) (hP : Ps.Pairwise (· < ·))
    (hw : WfDump (d.ctx alnum) d Ps) : convDump alnum d ≠ .panic := by
  have h := rep_dump alnum hn hP hw
  intro hp
  rw [hp] at h
  exact h

/-! ### A file of two systems -/

/-- The index of the sample. -/
def exI : JVar := ⟨"i", .index⟩
/-- The time of the sample macro. -/
def exTau : JVar := ⟨"tau", .timestamp⟩
/-- Symbols of the sample. -/
def sy (s : String) : Path := ⟨[], s⟩

/-- A file of systems `A` and `B`: a name `n(i)`, a hash `h`, a cell `c`, a global macro `g(x)`, and the actions `init`
and `a(i)`. -/
def exDump : Dump where
  query := .app (.fun_ (sy "=")) [.diff [("A", exVar "m"), ("B", exVar "k")], .mac (sy "output") [] (.action (sy "a") [.var exI])]
  hyps := [.app (.fun_ (sy "happens")) [.action (sy "a") [.var exI]]]
  vars := [exI, ⟨"m", .message⟩, ⟨"k", .message⟩]
  actions := [
    ⟨sy "init", [], [], [], .app (.fun_ (sy "true")) [], [], .app (.fun_ (sy "empty")) [], []⟩,
    ⟨sy "a", [⟨(0, [exI]), (0, [])⟩], [exI], [], .app (.fun_ (sy "true")) [],
      [⟨sy "c", [.var exI], .diff [("A", .name (sy "n") [.var exI]), ("B", .app (.fun_ (sy "empty")) [])]⟩],
      .diff [("B", .name (sy "n") [.var exI]), ("A", .mac (sy "g") [.var exI] (.action (sy "a") [.var exI]))], [sy "g"]⟩ ]
  names := [(sy "n", ⟨[], [.index], .message⟩)]
  ops := [(sy "h", ⟨⟨[], [.message, .message], .message⟩, .hash []⟩)]
  macs := [(sy "input", .protocol), (sy "output", .protocol), (sy "c", .state .message [exI]),
    (sy "g", .global [⟨"x", .message⟩] [exI] exTau (.app (.fun_ (sy "h")) [exVar "x", .name (sy "n") [.var exI]]))]
  types := []

/-- The letters of the sample. -/
def exAln (c : Char) : Bool := c.isAlphanum

theorem exDump_wf : WfDump (exDump.ctx exAln) exDump ["A", "B"] where
  query := by
    simp only [exDump, wf, wfL, wfD, wfP, exVar, exI]
    exact ⟨⟨⟨.refl _, trivial, trivial, trivial⟩, ⟨trivial, trivial, trivial⟩, trivial⟩, fun h => by
      simp [Dump.ctx, find, sy, takesTuple] at h⟩
  hyps := by
    simp only [exDump, wf, wfL, exI]
    exact ⟨⟨⟨⟨trivial, trivial⟩, trivial⟩, fun _ => trivial⟩, trivial⟩
  actions := by
    intro a ha
    simp only [exDump, List.mem_cons, List.not_mem_nil, or_false] at ha
    rcases ha with rfl | rfl
    · exact
        { inv := rfl, dummy := by simp, condVars := rfl,
          cond := by simp [wf, wfL, headOk], output := by simp [wf, wfL, headOk],
          updArgs := by simp, updCells := by simp, updBody := by simp,
          inputs := fun m h => by simp [firstMacro] at h }
    · refine
        { inv := rfl, dummy := by simp [exI], condVars := rfl,
          cond := by simp [wf, wfL, headOk],
          output := by
            simp only [wf, wfD, wfP, wfL]
            exact ⟨List.Perm.swap _ _ _, ⟨⟨trivial, trivial⟩, fun _ => trivial⟩, ⟨⟨trivial, trivial⟩, trivial, trivial⟩, trivial⟩,
          updArgs := by simp [wfL, wf], updCells := ?_, updBody := ?_,
          inputs := fun m h => ?_ }
      · intro u hu P _ t ht
        simp only [List.mem_singleton] at hu
        subst hu
        simp only [List.mem_singleton] at ht
        subst ht
        rfl
      · intro u hu
        simp only [List.mem_singleton] at hu
        subst hu
        simp only [wf, wfD, wfP, wfL]
        exact ⟨.refl _, ⟨⟨trivial, trivial⟩, fun _ => trivial⟩, ⟨trivial, fun _ => trivial⟩, trivial⟩
      · have : firstMacro exDump [sy "g"] = some (MacDef.global [⟨"x", .message⟩] [exI] exTau
          (.app (.fun_ (sy "h")) [exVar "x", .name (sy "n") [.var exI]])) := by
          simp [firstMacro, find, exDump, sy]
        change firstMacro exDump [sy "g"] = some m at h
        rw [this] at h
        obtain rfl := Option.some.inj h
        simp [MacDef.inputs, JVar.dummy]
  ops := by simp [exDump, WfDef]
  macs := by
    simp only [exDump, List.mem_cons, List.not_mem_nil, or_false, forall_eq_or_imp, forall_eq, WfMac, wf, wfL, exVar]
    exact ⟨trivial, trivial, trivial, ⟨trivial, ⟨⟨trivial, trivial⟩, fun _ => trivial⟩, trivial⟩, fun _ => trivial⟩

theorem exDump_supp : SuppDump (exDump.ctx exAln) exDump := by
  have hm : ∀ s ∈ ["input", "output", "g"], ((exDump.ctx exAln).macs (sy s)).isSome := by decide
  have hi : ∀ (k : Kind) (s : String), s ∈ ["=", "happens", "true", "empty", "h", "n"] →
      (exDump.ctx exAln).san k (Path.toStr (sy s)) ≠ "if" := by
    intro k s hs
    simp only [List.mem_cons, List.not_mem_nil, or_false] at hs
    rcases hs with rfl | rfl | rfl | rfl | rfl | rfl <;> cases k <;> decide +kernel
  refine { query := ?_, hyps := ?_, vars := ?_, actions := ?_, names := ?_, ops := ?_, macs := ?_ }
  · simp only [exDump, supp, suppL, suppD, suppP, exVar]
    exact ⟨⟨⟨trivial, trivial, trivial⟩, ⟨trivial, ⟨trivial, trivial⟩, hm "output" (by simp)⟩, trivial⟩,
      fun h => absurd h (hi _ "=" (by simp))⟩
  · simp only [exDump, supp, suppL]
    exact ⟨⟨⟨⟨trivial, trivial⟩, trivial⟩, fun h => absurd h (hi _ "happens" (by simp))⟩, trivial⟩
  · simp [exDump, okTy, dTy, exI]
  · intro a ha
    simp only [exDump, List.mem_cons, List.not_mem_nil, or_false] at ha
    rcases ha with rfl | rfl
    · exact
        { indices := by simp
          cond := by simp only [supp, suppL]; exact ⟨trivial, fun h => absurd h (hi _ "true" (by simp))⟩
          output := by simp only [supp, suppL]; exact ⟨trivial, fun h => absurd h (hi _ "empty" (by simp))⟩
          updVars := by simp, updArgs := by simp, updBody := by simp
          inputs := fun m h => by simp [firstMacro] at h }
    · refine
        { indices := by simp [exI, okTy, dTy]
          cond := by simp only [supp, suppL]; exact ⟨trivial, fun h => absurd h (hi _ "true" (by simp))⟩
          output := by
            simp only [supp, suppL, suppD, suppP]
            exact ⟨⟨⟨trivial, trivial⟩, fun h => absurd h (hi _ "n" (by simp))⟩, ⟨⟨trivial, trivial⟩, ⟨trivial, trivial⟩, hm "g" (by simp)⟩,
              trivial⟩
          updVars := by simp [jvars, okTy, dTy, exI]
          updArgs := by simp [suppL, supp]
          updBody := ?_
          inputs := fun m h => ?_ }
      · intro u hu
        simp only [List.mem_singleton] at hu
        subst hu
        simp only [supp, suppL, suppD, suppP]
        exact ⟨⟨⟨trivial, trivial⟩, fun h => absurd h (hi _ "n" (by simp))⟩, ⟨trivial, fun h => absurd h (hi _ "empty" (by simp))⟩, trivial⟩
      · have : firstMacro exDump [sy "g"] = some (MacDef.global [⟨"x", .message⟩] [exI] exTau
          (.app (.fun_ (sy "h")) [exVar "x", .name (sy "n") [.var exI]])) := by
          simp [firstMacro, find, exDump, sy]
        change firstMacro exDump [sy "g"] = some m at h
        rw [this] at h
        obtain rfl := Option.some.inj h
        refine ⟨by simp [MacDef.inputs, JVar.dummy, okTy, dTy], fun i hi => ?_⟩
        have : i = 0 := by simp [MacDef.inputs, JVar.dummy] at hi; exact hi
        subst this
        exact ⟨by decide, hm "input" (by simp)⟩
  · simp [exDump, declArgs, okTy, dTy]
  · simp [exDump, SuppDef, declArgs, okTy, dTy]
  · simp only [exDump, List.mem_cons, List.not_mem_nil, or_false, forall_eq_or_imp, forall_eq, SuppMac, supp, suppL, exVar]
    exact ⟨trivial, trivial, ⟨rfl, by simp [okTy, dTy, exI]⟩, by simp [okTy, dTy, exI, exTau],
      ⟨trivial, ⟨⟨trivial, trivial⟩, fun h => absurd h (hi _ "n" (by simp))⟩, trivial⟩, fun h => absurd h (hi _ "h" (by simp))⟩

example : ∃ r, convDump exAln exDump = .ok r ∧ ∀ i (hi : i < 2), ∃ x, r.get i = some x ∧
    convDump exAln (selDump (["A", "B"][i]) exDump) = .ok (.any x) := by
  obtain ⟨r, hr, _⟩ := C77_total exAln (by simp) (by decide) exDump_wf exDump_supp
  exact ⟨r, hr, fun i hi => C77_projection exAln (Ps := ["A", "B"]) (by simp) (by decide) exDump_wf hr i hi⟩

/-! ### What the hypotheses are for -/

/-- A file with the single action `a`. -/
def oneAct (a : JAct) : Dump where
  query := .app (.fun_ (sy "true")) []
  hyps := []
  vars := []
  actions := [a]
  names := []
  ops := []
  macs := [(sy "g", .global [⟨"x", .message⟩, ⟨"y", .message⟩] [] exTau (exVar "x"))]
  types := []

/-- An action that does nothing. -/
def idle : JAct := ⟨sy "a", [], [], [], .app (.fun_ (sy "true")) [], [], .app (.fun_ (sy "empty")) [], []⟩

/-- How many variables the assignments of a problem quantify over. -/
def countFresh (l : List Stm) : Nat :=
  l.foldl (fun n s => match s with
    | .step _ _ _ _ (some asgs) _ => asgs.foldl (fun n a => n + (a.fresh.getD []).length) n
    | _ => n) 0

/-- When the cell updated differs from one system to the other, the assignment of each problem also quantifies over
the variables of the other system. -/
theorem C77_update_counterexample :
    ∃ (d : Dump) (r : AoO (List Stm)) (x y : List Stm), SuppDump (d.ctx exAln) d ∧ convDump exAln d = .ok r ∧
      r.get 0 = some x ∧ convDump exAln (selDump "A" d) = .ok (.any y) ∧ countFresh x = 2 ∧ countFresh y = 1 := by
  let d : Dump := oneAct { idle with updates := [⟨sy "c", [.diff [("A", exVar "j"), ("B", exVar "k")]], .app (.fun_ (sy "empty")) []⟩] }
  have hi : ∀ (k : Kind) (s : String), s ∈ ["true", "empty"] → (d.ctx exAln).san k (Path.toStr (sy s)) ≠ "if" := by
    intro k s hs
    simp only [List.mem_cons, List.not_mem_nil, or_false] at hs
    rcases hs with rfl | rfl <;> cases k <;> decide +kernel
  have h1 : (convDump exAln d).map (AoO.map countFresh) = .ok (.all [2, 2]) := by decide +kernel
  have h2 : (convDump exAln (selDump "A" d)).map (AoO.map countFresh) = .ok (.any 1) := by decide +kernel
  have hs : SuppDump (d.ctx exAln) d := by
    refine ⟨?_, trivial, by simp [d, oneAct], ?_, by simp [d, oneAct], by simp [d, oneAct], ?_⟩
    · show supp _ (.app (.fun_ (sy "true")) [])
      simp only [supp, suppL]
      exact ⟨trivial, fun h => absurd h (hi _ "true" (by simp))⟩
    · intro a ha
      simp only [d, oneAct, List.mem_singleton] at ha
      subst ha
      exact
        { indices := by simp [idle]
          cond := by simp only [idle, supp, suppL]; exact ⟨trivial, fun h => absurd h (hi _ "true" (by simp))⟩
          output := by simp only [idle, supp, suppL]; exact ⟨trivial, fun h => absurd h (hi _ "empty" (by simp))⟩
          updVars := by simp [jvars, jvarsD, jvarsP, okTy, dTy, exVar]
          updArgs := by simp [suppL, supp, suppD, suppP, exVar]
          updBody := by
            intro u hu
            simp only [List.mem_singleton] at hu
            subst hu
            simp only [supp, suppL]
            exact ⟨trivial, fun h => absurd h (hi _ "empty" (by simp))⟩
          inputs := fun m h => by simp [firstMacro, idle] at h }
    · intro e he
      simp only [d, oneAct, List.mem_singleton] at he
      subst he
      refine ⟨fun v hv => ?_, trivial⟩
      simp only [List.cons_append, List.nil_append, List.mem_cons, List.not_mem_nil, or_false] at hv
      rcases hv with rfl | rfl | rfl <;> rfl
  cases h3 : convDump exAln d with
  | err => rw [h3] at h1; simp [Res.map] at h1
  | panic => rw [h3] at h1; simp [Res.map] at h1
  | ok r =>
    rw [h3] at h1
    simp only [Res.map, Res.ok.injEq] at h1
    cases h4 : convDump exAln (selDump "A" d) with
    | err => rw [h4] at h2; simp [Res.map] at h2
    | panic => rw [h4] at h2; simp [Res.map] at h2
    | ok q =>
      rw [h4] at h2
      simp only [Res.map, Res.ok.injEq] at h2
      cases r with
      | any x => simp [AoO.map] at h1
      | one i x => simp [AoO.map] at h1
      | all l =>
        cases q with
        | all y => simp [AoO.map] at h2
        | one i y => simp [AoO.map] at h2
        | any y =>
          match l, h1 with
          | [], h1 => simp [AoO.map] at h1
          | x :: l, h1 =>
            simp only [AoO.map, List.map_cons, AoO.all.injEq, List.cons.injEq] at h1
            simp only [AoO.map, AoO.any.injEq] at h2
            exact ⟨d, _, x, y, hs, h3, rfl, h4, h1.1, h2⟩

/-- The conversion panics on a condition with variables of its own, on an encryption without its decryption, and on a
macro with more inputs than there are steps before it. -/
theorem C77_panic_counterexample :
    convDump exAln (oneAct { idle with condVars := [exI] }) = .panic ∧
    convDump exAln { oneAct idle with ops := [(sy "e", ⟨⟨[], [.message], .message⟩, .senc []⟩)] } = .panic ∧
    convDump exAln { oneAct { idle with globals := [sy "g"] } with
      macs := [(sy "input", .protocol), (sy "g", .global [⟨"x", .message⟩, ⟨"y", .message⟩] [] exTau (exVar "x"))] } = .panic := by
  refine ⟨?_, ?_, ?_⟩ <;> with_unfolding_all rfl

end Sq
end CV
