import Verif.ParserMain2
/-
Properties C19–C23 and C34: elaboration of surface terms.
-/
set_option linter.unusedSimpArgs false
namespace CV
namespace Prs
open Fm

/-! ## C20: names, binders and connectives mean what they say -/

/-- **C20 (partial).** Every accepted assertion, lemma or query that is clean means what it says: in every interpretation,
the formula handed to the rest of the tool has the value that the lexically scoped reading of the text has. When shadowing
is disallowed, cleanness asks nothing about the names of binders. Missing: text that re-uses names while shadowing is
allowed (false, `C20_shadow_counterexample`), that leaks or recursively uses `let` (false, C19), drops arguments
(false, C21 and C22), or uses macros with quantifiers (false, `C23_capture_counterexample`). -/
theorem C20_meaning_partial (E : Env) (n : Nat) (t : Tm) (st st' : St) (φ : Fm PF) (hc : Clean E .ev [] [] t)
    (h : parseAssert E n t st = .ok (φ, st')) {D : Type} (I : Sem D) (hI : I.Ok E) (hR : I.Real st'.tbl) (ρ : Valn D) :
    φ.eval I.M ρ = den E I .ev [] t := by
  have h0 : Sc [] [] ({ st with bvars := [] } : St).bvars :=
    ⟨fun i p h => (by simp at h), fun p h => (by cases h), fun p h => (by cases h)⟩
  have g := parse_good E n .ev (.stat .bool) t { st with bvars := [] } [] [] [] φ st' h0 (by simp) hc h
  exact g.sem D I hI hR ρ

/-- The same inside any scope, realm and expected sort: names denote the variables of the scope. -/
theorem C20_meaning_scoped_partial (E : Env) (n : Nat) (r : Realm) (es : Px) (t : Tm) (st st' : St) (φ : Fm PF)
    (Γ : List (String × Var)) (Dd : List String) (hsc : Sc Γ Dd st.bvars) (hc : Clean E r (Γ.map Prod.fst) Dd t)
    (h : parse E n r es t st = .ok (φ, st')) {D : Type} (I : Sem D) (hI : I.Ok E) (hR : I.Real st'.tbl) (ρ : Valn D) :
    φ.eval I.M ρ = den E I r (Γ.map fun p => (p.1, p.2.sort, ρ p.2.id)) t :=
  (parse_good E n r es t st Γ _ Dd φ st' hsc (fun _ => Iff.rfl) hc h).sem D I hI hR ρ

/-! ## A small file for the examples -/

/-- The body of the macro `m`. -/
def exBody : Tm := .quant .all [("y", "Index")] (.app "p" [.cvar "x", .cvar "y"])

/-- Declarations: a predicate `p` on two indices, `q` on one, a message `a`, a unary `f`, and the macros
`m(x) = forall (y: Index) {p(x, y)}` and `g(x) = p(x, x)`. -/
def exE : Env where
  sorts s := if s = "Index" then some .index else if s = "Bool" then some .bool else if s = "Message" then some .message else none
  functions s :=
    if s = "p" then some ⟨.sym "p", .fixed [.index, .index] .condition, false⟩
    else if s = "q" then some ⟨.sym "q", .fixed [.index] .condition, false⟩
    else if s = "a" then some ⟨.sym "a", .fixed [] .message, false⟩
    else if s = "f" then some ⟨.sym "f", .fixed [.message] .message, false⟩
    else none
  steps _ := none
  macros s := if s = "m" then some ⟨[("x", .index)], exBody⟩
    else if s = "g" then some ⟨[("x", .index)], .app "p" [.cvar "x", .cvar "x"]⟩ else none
  shadowing := true

/-- The initial state. -/
def st0 : St := ⟨[], [], []⟩

open Classical in
/-- A structure on numbers with two indices, `p` being equality and `q` being "is 0". -/
noncomputable def exM : Str PF Nat where
  fn
    | .evalCond, [d] => d
    | .sym s, [a, b] => if s = "p" ∧ a = b then 1 else 0
    | .sym s, [a] => if s = "q" ∧ a = 0 then 1 else 0
    | _, _ => 0
  truth d := d = 1
  ofProp p := if p then 1 else 0
  truth_ofProp p := by by_cases h : p <;> simp [h]
  dom s d := match s with
    | .index => d < 2
    | _ => True

/-- Its interpretation before macros. -/
noncomputable def exI0 : Sem Nat := ⟨exM, fun _ _ _ => 0, fun _ _ _ _ => 0, fun _ _ _ => 0, fun _ _ _ => 0, fun _ _ _ => 0⟩

/-- The bodies of the macros. -/
def exMac (m : String) : Tm := if m = "m" then exBody else .app "p" [.cvar "x", .cvar "x"]

/-- The interpretation of the example file. -/
noncomputable def exI : Sem Nat :=
  { exI0 with mac := fun m r vs => den exE exI0 r (ext exI0.junk [("x", .index)] vs []) (exMac m) }

theorem exI_ok : exI.Ok exE where
  mac m c h r vs _ := by
    simp only [exE] at h
    split at h
    · next e => cases h; subst e; cases r <;> rfl
    · next e =>
      split at h
      · next e => cases h; subst e; cases r <;> rfl
      · cases h
  msg s c i h := by cases h
  cnd s c i h := by cases h

theorem exI_real : exI.Real [] := by intro n q h; simp at h

/-- Non-vacuity of the meaning theorem: a clean assertion with a quantifier, a `let` and a chain is accepted. -/
def exT : Tm :=
  .quant .all [("i", "Index")] (.letin ("z", "Bool") (.app "q" [.cvar "i"]) (.infx .and [.cvar "z", .cvar "z"]))

theorem exT_clean : Clean exE .ev [] [] exT := by
  refine .quant (fun _ => by simp) ?_
  refine .letin (so := .bool) rfl rfl (fun _ => by simp) ?_ ?_
  · refine .app (i := ⟨.sym "q", .fixed [.index] .condition, false⟩) rfl rfl ?_ ?_
    · simp [RealmsOk, FSig.args, FSig.realm, realmOf, argRealm]
    · exact .cons (.cvarVar (by simp)) .nil
  · exact .and (.cons (.cvarVar (by simp)) (.cons (.cvarVar (by simp)) .nil))

example : ∃ φ st', parseAssert exE 5 exT st0 = .ok (φ, st') ∧ exI.Real st'.tbl ∧
    φ = .quant .all [⟨0, .index⟩] (.app .and [.app .evalCond [.app (.sym "q") [.var ⟨0, .index⟩]],
      .app .evalCond [.app (.sym "q") [.var ⟨0, .index⟩]]]) := by
  refine ⟨_, _, rfl, exI_real, rfl⟩

/-- `forall (x: Index) {exists (x: Index) {q(x)}}`. -/
def exShadow : Tm := .quant .all [("x", "Index")] (.quant .ex [("x", "Index")] (.app "q" [.cvar "x"]))

/-- **C20 is false when names are re-used.** With shadowing allowed (the default), a name denotes its *outermost*
binder: `forall x. exists x. q(x)` is accepted, and becomes `forall x. exists x'. q(x)`, which is false in a structure
where the text, read with lexical scope, is true. -/
theorem C20_shadow_counterexample : ∃ φ st', parseAssert exE 4 exShadow st0 = .ok (φ, st') ∧ exI.Ok exE ∧ exI.Real st'.tbl ∧
    (∀ ρ, ¬ exM.truth (φ.eval exI.M ρ)) ∧ exM.truth (den exE exI .ev [] exShadow) := by
  refine ⟨.quant .all [⟨0, .index⟩] (.quant .ex [⟨1, .index⟩] (.app .evalCond [.app (.sym "q") [.var ⟨0, .index⟩]])), _, rfl,
    exI_ok, exI_real, ?_, ?_⟩
  · intro ρ
    simp only [Fm.eval, Fm.evals, exI, exI0, quantVal, exM, Valn.set, reduceCtorEq, if_true, ite_eq_left_iff, Str.truth_ofProp]
    simp
    exact ⟨1, by decide, by simp⟩
  · simp [den, dens, exShadow, sorted, exE, funOf, ext, qSem, Sem.appVal, exI, exI0, Sem.evalAt, exM, FSig.realm, realmOf, sigRealms, argRealm, List.lookup]

/-! ## C19: scoping -/

/-- **C19 (partial).** The formula of an accepted clean assertion has no free variable, and every binding introduced
for a quantifier or a `find` has been undone; only the names of `let`s are still bound. Missing: text that uses a
`let`-bound name in its own definition or after its scope (false, `C19_recursive_let`, `C19_let_leaks`). -/
theorem C19_closed_partial (E : Env) (n : Nat) (t : Tm) (st st' : St) (φ : Fm PF) (hc : Clean E .ev [] [] t)
    (h : parseAssert E n t st = .ok (φ, st')) : (∀ v, ¬ OccursFree v φ) ∧ st'.bvars.map Prod.fst = leak t := by
  have h0 : Sc [] [] ({ st with bvars := [] } : St).bvars :=
    ⟨fun i p h => (by simp at h), fun p h => (by cases h), fun p h => (by cases h)⟩
  have g := parse_good E n .ev (.stat .bool) t { st with bvars := [] } [] [] [] φ st' h0 (by simp) hc h
  refine ⟨fun v hv => ?_, ?_⟩
  · obtain ⟨p, hp, _⟩ := g.free v hv
    cases hp
  · obtain ⟨lk, h1, h2⟩ := g.bv
    rw [h1, ← h2]; simp

/-- Inside any scope: free variables are variables of the scope, the quantifiers of the result bind numbers unused by
the scope, and the bindings in force are restored, but for leaked `let`s. -/
theorem C19_scoped_partial (E : Env) (n : Nat) (r : Realm) (es : Px) (t : Tm) (st st' : St) (φ : Fm PF)
    (Γ : List (String × Var)) (Dd : List String) (hsc : Sc Γ Dd st.bvars) (hc : Clean E r (Γ.map Prod.fst) Dd t)
    (h : parse E n r es t st = .ok (φ, st')) :
    (∀ v, OccursFree v φ → ∃ p ∈ Γ, p.2.id = v.id) ∧ (∀ v ∈ φ.bound, ∀ p ∈ st.bvars, p.2.id ≠ v.id) ∧
      (leak t = [] → st'.bvars = st.bvars) := by
  have g := parse_good E n r es t st Γ _ Dd φ st' hsc (fun _ => Iff.rfl) hc h
  refine ⟨g.free, fun v hv p hp e => ?_, fun hl => ?_⟩
  · have h1 := g.bnd v hv
    obtain ⟨i, hi⟩ := List.mem_iff_getElem?.1 hp
    have h2 := hsc.1 i p hi
    have h3 := (List.getElem?_eq_some_iff.1 hi).1
    omega
  · obtain ⟨lk, h1, h2⟩ := g.bv
    rw [hl] at h2
    rw [h1, List.map_eq_nil_iff.1 h2, List.append_nil]

example : ∃ φ st', parseAssert exE 5 exT st0 = .ok (φ, st') ∧ Clean exE .ev [] [] exT := ⟨_, _, rfl, exT_clean⟩

/-- **C19 is false of recursive `let`s.** `let x: Bool = x in x` is accepted, and leaves a free variable in the
formula. -/
theorem C19_recursive_let : ∃ φ st', parseAssert exE 3 (.letin ("x", "Bool") (.cvar "x") (.cvar "x")) st0 = .ok (φ, st') ∧
    OccursFree ⟨0, .bool⟩ φ := ⟨_, _, rfl, .var⟩

/-- **C19 is false after a `let`.** `(let x: Bool = true in x) && x` is accepted although the second `x` is not in
scope, and leaves a free variable in the formula. -/
theorem C19_let_leaks : ∃ φ st', parseAssert exE 4
      (.infx .and [.letin ("x", "Bool") (.cvar "true") (.cvar "x"), .cvar "x"]) st0 = .ok (φ, st') ∧
    OccursFree ⟨0, .bool⟩ φ := ⟨_, _, rfl, .app (a := .var ⟨0, .bool⟩) (by simp) .var⟩

/-! ## C21: number of arguments -/

/-- What happens to an application. -/
theorem parse_app_eq {E : Env} {n : Nat} {r : Realm} {es : Px} {f : String} {i : FInfo} {args : List Tm} {st : St}
    (hi : getFun E r f = some i) :
    parse E (n + 1) r es (.app f args) st = parseApp (parse E n) r es i args st := by
  simp only [parse, parseApplication, hi, Out.ofOption, Out.bind]

theorem parseList_len (p : Px → Tm → St → PRes) : ∀ (l : List (Px × Tm)) (st : St) (x : List (Fm PF) × St),
    parseList p l st = .ok x → x.1.length = l.length := by
  intro l
  induction l with
  | nil => intro st x h; simp only [parseList] at h; cases h; rfl
  | cons z l ih =>
    intro st x h
    simp only [parseList] at h
    obtain ⟨y, _, h⟩ := Out.bind_ok h
    obtain ⟨w, hw, h⟩ := Out.bind_ok h
    have := Out.ok.inj h
    subst this
    simp [ih _ _ hw]

/-- **C21: arguments in excess are ignored.** Applying a function with a declared list of parameters to more
arguments has the result of applying it to the first ones; the others are not even looked at. -/
theorem C21_excess_ignored (E : Env) (n : Nat) (r : Realm) (es : Px) (f : String) (i : FInfo) (a : List Srt) (o : Srt)
    (args : List Tm) (st : St) (hi : getFun E r f = some i) (hs : i.sig = .fixed a o) :
    parse E (n + 1) r es (.app f args) st = parse E (n + 1) r es (.app f (args.take a.length)) st := by
  rw [parse_app_eq hi, parse_app_eq hi]
  have key : ∀ (l : List Px) (args : List Tm), l.zip (args.take l.length) = l.zip args := by
    intro l
    induction l with
    | nil => simp
    | cons x l ih => intro args; cases args <;> simp [ih]
  have : (a.map Px.stat).zip (args.take a.length) = (a.map Px.stat).zip args := by
    have := key (a.map Px.stat) args
    rwa [List.length_map] at this
  simp only [parseApp, hs, FSig.inst, this]

/-- **C21 (partial): too few arguments are rejected.** An accepted application gives at least the declared number of
arguments, and the resulting symbol is applied to exactly that many (`ite`, `=` and the connectives included). Missing: rejecting the
excess (false, `C21_excess_ignored`). -/
theorem C21_enough_partial (E : Env) (n : Nat) (r : Realm) (es : Px) (f : String) (i : FInfo) (args : List Tm) (st : St)
    (φ : Fm PF) (st' : St) (hi : getFun E r f = some i) (h : parse E (n + 1) r es (.app f args) st = .ok (φ, st')) :
    ∃ as store o, i.sig.arityOk as.length = true ∧ as.length ≤ args.length ∧ φ = buildApp r i store o as := by
  rw [parse_app_eq hi] at h
  unfold parseApp at h
  rcases hin : i.sig.inst st.store args.length with ⟨sa, o, store⟩
  rw [hin] at h
  obtain ⟨x, hx, h⟩ := Out.bind_ok h
  have hl := parseList_len _ _ _ _ hx
  split at h
  case isFalse => cases h
  case isTrue hk =>
    obtain ⟨u, _, h⟩ := Out.bind_ok h
    have := (Prod.mk.inj (Out.ok.inj h)).1
    refine ⟨x.1, x.2.store, o, hk, ?_, this.symm⟩
    rw [hl, List.length_zip]; omega

/-- The same as a rejection. -/
theorem C21_too_few_rejected (E : Env) (n : Nat) (r : Realm) (es : Px) (f : String) (i : FInfo) (a : List Srt) (o : Srt)
    (args : List Tm) (st : St) (hi : getFun E r f = some i) (hs : i.sig = .fixed a o) (hl : args.length < a.length)
    (φ : Fm PF) (st' : St) : parse E (n + 1) r es (.app f args) st ≠ .ok (φ, st') := by
  intro h
  obtain ⟨as, _, _, h1, h2, _⟩ := C21_enough_partial E n r es f i args st φ st' hi h
  rw [hs] at h1
  simp only [FSig.arityOk, beq_iff_eq] at h1
  omega

/-- Macros, on the other hand, require exactly as many arguments as parameters. -/
theorem C21_macro_exact (E : Env) (n : Nat) (r : Realm) (es : Px) (m : String) (c : MacInfo) (args : List Tm) (st : St)
    (φ : Fm PF) (st' : St) (hm : E.macros m = some c) (h : parse E (n + 1) r es (.mac m args) st = .ok (φ, st')) :
    args.length = c.params.length := by
  simp only [parse, parseMac, hm] at h
  split at h
  case isTrue hl => exact hl.symm
  case isFalse => cases h

/-- **C21 is false of excess arguments**: `f(a, a)` is accepted although `f` has one parameter. -/
theorem C21_excess_counterexample : (exE.functions "f").map (·.sig) = some (.fixed [.message] .message) ∧
    ∃ φ st', parseAssert exE 4 (.infx .eq [.app "f" [.cvar "a", .cvar "a"], .cvar "a"]) st0 = .ok (φ, st') :=
  ⟨rfl, _, _, rfl⟩

example : ∃ i a o φ st', getFun exE .ev "f" = some i ∧ i.sig = .fixed a o ∧
    parse exE 3 .ev (.stat .bitstring) (.app "f" [.cvar "a"]) st0 = .ok (φ, st') ∧ [Tm.cvar "a"].length = a.length :=
  ⟨_, _, _, _, _, rfl, rfl, rfl, rfl⟩

/-! ## C22: chained infix operators -/

/-- The boolean connectives are interpreted as usual. -/
structure BoolStd {D : Type} (M : Str PF D) : Prop where
  and : ∀ l, M.truth (M.fn .and l) ↔ ∀ d ∈ l, M.truth d
  or : ∀ l, M.truth (M.fn .or l) ↔ ∃ d ∈ l, M.truth d
  eq : ∀ a b, M.truth (M.fn .eq [a, b]) ↔ a = b
  imp : ∀ a b, M.truth (M.fn .imp [a, b]) ↔ (M.truth a → M.truth b)

/-- **C22 (partial), conjunctions**: an accepted clean chain `t₁ && … && tₙ` of any length holds exactly when every
operand does. -/
theorem C22_and_partial (E : Env) (n : Nat) (ts : List Tm) (st st' : St) (φ : Fm PF)
    (hc : Clean E .ev [] [] (.infx .and ts)) (h : parseAssert E n (.infx .and ts) st = .ok (φ, st')) {D : Type} (I : Sem D)
    (hI : I.Ok E) (hR : I.Real st'.tbl) (hb : BoolStd I.M) (ρ : Valn D) :
    φ.holds I.M ρ ↔ ∀ t ∈ ts, I.M.truth (den E I .ev [] t) := by
  unfold Fm.holds
  rw [C20_meaning_partial E n _ st st' φ hc h I hI hR ρ]
  simp only [den, Sem.infix, Sem.conj, hb.and, opRealm]
  rw [dens_uniform E I .ev [] ts [] (by simp)]
  simp

/-- Disjunctions likewise. -/
theorem C22_or_partial (E : Env) (n : Nat) (ts : List Tm) (st st' : St) (φ : Fm PF)
    (hc : Clean E .ev [] [] (.infx .or ts)) (h : parseAssert E n (.infx .or ts) st = .ok (φ, st')) {D : Type} (I : Sem D)
    (hI : I.Ok E) (hR : I.Real st'.tbl) (hb : BoolStd I.M) (ρ : Valn D) :
    φ.holds I.M ρ ↔ ∃ t ∈ ts, I.M.truth (den E I .ev [] t) := by
  unfold Fm.holds
  rw [C20_meaning_partial E n _ st st' φ hc h I hI hR ρ]
  simp only [den, Sem.infix, Sem.disj, hb.or, opRealm]
  rw [dens_uniform E I .ev [] ts [] (by simp)]
  constructor
  · rintro ⟨d, hd, h⟩
    obtain ⟨t, ht, rfl⟩ := List.mem_map.1 hd
    exact ⟨t, ht, h⟩
  · rintro ⟨t, ht, h⟩
    exact ⟨_, List.mem_map_of_mem ht, h⟩

theorem mem_consec {D : Type} (f : D → D → D) : ∀ (l : List D) (d : D),
    d ∈ consec f l ↔ ∃ i a b, l[i]? = some a ∧ l[i + 1]? = some b ∧ d = f a b
  | [], d => by simp [consec]
  | [a], d => by simp [consec]
  | a :: b :: l, d => by
    rw [consec, List.mem_cons, mem_consec f (b :: l) d]
    constructor
    · rintro (rfl | ⟨i, x, y, h1, h2, h3⟩)
      · exact ⟨0, a, b, rfl, rfl, rfl⟩
      · exact ⟨i + 1, x, y, by simpa using h1, by simpa using h2, h3⟩
    · rintro ⟨i, x, y, h1, h2, h3⟩
      cases i with
      | zero =>
        simp at h1 h2
        left; rw [h3, h1, h2]
      | succ i => exact .inr ⟨i, x, y, by simpa using h1, by simpa using h2, h3⟩

/-- **C22 (partial), chains of `===`**: an accepted clean chain `t₁ === … === tₙ` of any length holds exactly when
every two neighbouring operands are equal. -/
theorem C22_hardEq_partial (E : Env) (n : Nat) (ts : List Tm) (st st' : St) (φ : Fm PF)
    (hc : Clean E .ev [] [] (.infx .hardEq ts)) (h : parseAssert E n (.infx .hardEq ts) st = .ok (φ, st')) {D : Type}
    (I : Sem D) (hI : I.Ok E) (hR : I.Real st'.tbl) (hb : BoolStd I.M) (ρ : Valn D) :
    φ.holds I.M ρ ↔ ∀ i a b, ts[i]? = some a → ts[i + 1]? = some b →
      I.M.truth (I.M.fn .evalCond [I.M.fn .taEq [den E I .sym [] a, den E I .sym [] b]]) := by
  unfold Fm.holds
  rw [C20_meaning_partial E n _ st st' φ hc h I hI hR ρ]
  simp only [den, Sem.infix, opRealm]
  rw [dens_uniform E I .sym [] ts [] (by simp)]
  have key : I.M.truth (I.chain .ev (I.hardEq1 .ev) (ts.map (den E I .sym []))) ↔
      ∀ d ∈ consec (I.hardEq1 .ev) (ts.map (den E I .sym [])), I.M.truth d := by
    unfold Sem.chain
    split
    · rename_i a b e; rw [e]; simp [consec]
    · simp only [Sem.conj, hb.and]
  rw [key]
  constructor
  · intro H i a b h1 h2
    exact H _ ((mem_consec _ _ _).2 ⟨i, _, _, by simp [h1], by simp [h2], rfl⟩)
  · intro H d hd
    obtain ⟨i, x, y, h1, h2, rfl⟩ := (mem_consec _ _ _).1 hd
    simp only [List.getElem?_map, Option.map_eq_some_iff] at h1 h2
    obtain ⟨a, h1, rfl⟩ := h1
    obtain ⟨b, h2, rfl⟩ := h2
    exact H i a b h1 h2

/-- The operators whose third and further operands are lost when elaborating in a realm. -/
def Lossy : Realm → Op → Prop
  | .ev, .eq | .ev, .neq | .ev, .iff | _, .implies => True
  | _, _ => False

theorem parseApp_one_congr {p : Realm → Px → Tm → St → PRes} {i : FInfo} {r : Realm} {t t' : Tm}
    (h : ∀ es st, p (i.sig.realm.getD r) es t st = p (i.sig.realm.getD r) es t' st) (es : Px) (st : St) :
    parseApp p r es i [t] st = parseApp p r es i [t'] st := by
  have key : ∀ (l : List Px) st, parseList (p (i.sig.realm.getD r)) (l.zip [t]) st =
      parseList (p (i.sig.realm.getD r)) (l.zip [t']) st := by
    intro l st
    cases l with
    | nil => rfl
    | cons x l => simp only [List.zip_cons_cons, parseList, h, List.zip_nil_right]
  simp only [parseApp, key, List.length_cons, List.length_nil]

/-- **C22 is false of chains of `=`, `!=`, `<=>` and `==>`**: an assertion or query `a = b = c …` has the result of
`a = b`; the operands from the third on are not looked at. -/
theorem C22_operands_dropped (E : Env) (n : Nat) (r : Realm) (es : Px) (op : Op) (ts : List Tm) (st : St)
    (ho : Lossy r op) : parse E (n + 2) r es (.infx op ts) st = parse E (n + 2) r es (.infx op (ts.take 2)) st := by
  have key : ∀ (x y : Px) (l : List Tm), [x, y].zip (l.take 2) = [x, y].zip l := by
    intro x y l
    match l with
    | [] => rfl
    | [a] => rfl
    | a :: b :: l => rfl
  have heq : ∀ n ts st es, parse E (n + 1) .ev es (.infx .eq ts) st = parse E (n + 1) .ev es (.infx .eq (ts.take 2)) st := by
    intro n ts st es
    simp only [parse, parseInfix, parseApp, eqInfo, FSig.inst, key]
  cases op <;> cases r <;> simp only [Lossy] at ho
  case eq.ev => exact heq _ _ _ _
  case neq.ev =>
    simp only [parse, parseInfix, parseApplication, getFun, Out.ofOption, Out.bind]
    exact parseApp_one_congr (fun es st => heq n ts st es) _ _
  case iff.ev => simp only [parse, parseInfix, parseApp, eqInfo, FSig.inst, key]
  case implies.ev => simp only [parse, parseInfix, parseApp, impInfo, FSig.inst, List.map, key]
  case implies.sym => simp only [parse, parseInfix, parseApp, impInfo, FSig.inst, List.map, key]

/-- **C22 is false of `<=>` in the symbolic realm** (message and condition terms): elaboration does not terminate, with
any number of operands from two on. -/
theorem C22_sym_iff_diverges (E : Env) : ∀ (n : Nat) (es : Px) (a b : Tm) (l : List Tm) (st : St),
    parse E n .sym es (.infx .iff (a :: b :: l)) st = .loop
  | 0, _, _, _, _, _ => rfl
  | 1, es, a, b, l, st => by simp [parse, parseInfix]
  | n + 2, es, a, b, l, st => by
    rw [parse]
    simp only [parseInfix]
    rw [parse]
    simp only [parseInfix, pairTerms, symInfix, C22_sym_iff_diverges E n, Out.bind]

/-- A chain of four conjuncts is accepted and clean; `a = a = f(a)` is accepted with its last operand lost. -/
example : ∃ φ st', parseAssert exE 4 (.infx .eq [.cvar "a", .cvar "a", .app "f" [.cvar "a"]]) st0 = .ok (φ, st') ∧
    φ = .app .eq [.app .evalMsg [.app (.sym "a") []], .app .evalMsg [.app (.sym "a") []]] := ⟨_, _, rfl, rfl⟩

example : Clean exE .ev [] [] (.infx .and [.cvar "true", .cvar "false", .cvar "True"]) ∧
    Clean exE .ev [] [] (.infx .hardEq [.cvar "a", .cvar "a", .cvar "a"]) ∧
    (∃ φ st', parseAssert exE 4 (.infx .and [.cvar "true", .cvar "false", .cvar "True"]) st0 = .ok (φ, st')) ∧
    (∃ φ st', parseAssert exE 5 (.infx .hardEq [.cvar "a", .cvar "a", .cvar "a"]) st0 = .ok (φ, st')) :=
  ⟨.and (.cons (.cvarFun (by simp) (by simp)) (.cons (.cvarFun (by simp) (by simp [leak])) (.cons (.cvarFun (by simp) (by simp [leak])) .nil))),
   .hardEqN (by simp) (by simp [leak]) (by intro t ht; simp at ht; subst ht; exact .cvarFun (by simp) (by simp)), ⟨_, _, rfl⟩, ⟨_, _, rfl⟩⟩

/-! ## C23: macros -/

theorem dens_len {D : Type} (E : Env) (I : Sem D) (r : Realm) (e : VEnv D) : ∀ (ts : List Tm) (rs : List Realm),
    (dens E I r rs e ts).length = ts.length
  | [], _ => rfl
  | _ :: ts, rs => by simp [dens, dens_len E I r e ts rs.tail]

/-- **C23 (partial).** An accepted clean use of a macro means its body with the parameters valued to the arguments,
whatever names the body and the arguments use. Missing: bodies in which a quantifier remains, which can capture
the arguments' variables (false, `C23_capture_counterexample`). -/
theorem C23_macro_partial (E : Env) (n : Nat) (r : Realm) (es : Px) (m : String) (c : MacInfo) (args : List Tm) (st st' : St) (φ : Fm PF)
    (Γ : List (String × Var)) (Dd : List String) (hsc : Sc Γ Dd st.bvars) (hc : Clean E r (Γ.map Prod.fst) Dd (.mac m args))
    (hm : E.macros m = some c) (h : parse E n r es (.mac m args) st = .ok (φ, st')) {D : Type} (I : Sem D) (hI : I.Ok E)
    (hR : I.Real st'.tbl) (ρ : Valn D) :
    φ.eval I.M ρ = den E I r (ext I.junk c.params (dens E I r (c.params.map fun p => argRealm r p.2)
      (Γ.map fun p => (p.1, p.2.sort, ρ p.2.id)) args) []) c.body := by
  rw [C20_meaning_scoped_partial E n r es _ st st' φ Γ Dd hsc hc h I hI hR ρ]
  simp only [den, hm]
  apply hI.mac m c hm
  cases n with
  | zero => simp [parse] at h
  | succ n => rw [dens_len, C21_macro_exact E n r es m c args st φ st' hm h]

/-- `forall (i: Index, j: Index) {m!(j)}`. -/
def exCapture : Tm := .quant .all [("i", "Index"), ("j", "Index")] (.mac "m" [.cvar "j"])

/-- **C23 is false of macros with quantifiers.** With `m(x) = forall (y: Index) {p(x, y)}`, the assertion
`forall (i: Index, j: Index) {m!(j)}` becomes `forall i, j. forall j. p(j, j)`: the argument is captured. It is true in a structure where the
text is false. -/
theorem C23_capture_counterexample : ∃ φ st', parseAssert exE 5 exCapture st0 = .ok (φ, st') ∧ exI.Ok exE ∧ exI.Real st'.tbl ∧
    (∀ ρ, exM.truth (φ.eval exI.M ρ)) ∧ ¬ exM.truth (den exE exI .ev [] exCapture) := by
  refine ⟨.quant .all [⟨0, .index⟩, ⟨1, .index⟩] (.quant .all [⟨1, .index⟩] (.app .evalCond [.app (.sym "p") [.var ⟨1, .index⟩, .var ⟨1, .index⟩]])), _, rfl,
    exI_ok, exI_real, ?_, ?_⟩
  · intro ρ
    simp only [Fm.eval, Fm.evals, exI, exI0, quantVal, exM, Valn.set, reduceCtorEq, if_true, ite_eq_left_iff, Str.truth_ofProp]
    simp
  · simp [den, dens, exCapture, sorted, exE, funOf, ext, qSem, Sem.appVal, exI, exI0, Sem.evalAt, exM, FSig.realm, realmOf, sigRealms, argRealm, List.lookup, exBody, exMac]
    exact ⟨⟨0, by decide⟩, 0, by decide, 1, by decide, by decide⟩

/-- A clean use of a macro under quantifiers, accepted. -/
example : Clean exE .ev [] [] (.quant .all [("x", "Index"), ("y", "Index")] (.mac "g" [.cvar "y"])) ∧
    ∃ φ st', parseAssert exE 5 (.quant .all [("x", "Index"), ("y", "Index")] (.mac "g" [.cvar "y"])) st0 = .ok (φ, st') ∧
      φ = .quant .all [⟨0, .index⟩, ⟨1, .index⟩]
        (.app .evalCond [.app (.sym "p") [.var ⟨1, .index⟩, .var ⟨1, .index⟩]]) := by
  refine ⟨.quant (fun _ => by simp) (.mac (c := ⟨[("x", .index)], .app "p" [.cvar "x", .cvar "x"]⟩) rfl rfl (by simp) ?_ ?_ ?_), _, _, rfl, rfl⟩
  · exact .cons (.cvarVar (by simp)) .nil
  · refine .app (i := ⟨.sym "p", .fixed [.index, .index] .condition, false⟩) rfl rfl ?_ ?_
    · simp [RealmsOk, FSig.args, FSig.realm, realmOf, argRealm]
    · exact .cons (.cvarVar (by simp)) (.cons (.cvarVar (by simp)) .nil)
  · refine .app (i := ⟨.sym "p", .fixed [.index, .index] .condition, false⟩) rfl ?_
    intro a ha; simp at ha; subst ha; exact .cvar

end Prs
end CV
