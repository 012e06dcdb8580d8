import Verif.BuildMain
import Verif.StdRun
set_option linter.unusedSimpArgs false
set_option linter.unusedTactic false
/-
Non-vacuity of C84: a file, its problem, and an execution of it in which all the hypotheses hold.
-/
namespace CV
namespace Bld
namespace Ex
open Dep Ev Cry Prs Fm

/-- A step `s(i)` that outputs `f(in)` if `g(i) = in` and assigns `g(i)` to `c(i)`. -/
def sDecl : StepDecl := ⟨"s", [("i", "Idx")], .infx .eq [.app "g" [.cvar "i"], .cvar "in"], .app "f" [.cvar "in"],
  [⟨none, "c", [.cvar "i"], .app "g" [.cvar "i"]⟩]⟩

def oDecl : OrderDecl := ⟨.all, [("i", "Idx")], .app "s" [.cvar "i"], .cvar "init", .gt, none⟩

def file : List Decl := [
  .type "Idx",
  .func "f" ["Message"] "Message",
  .func "g" ["Idx"] "Message",
  .cell "c" ["Idx"] "Message",
  .step sDecl,
  .order oDecl,
  .crypto ⟨"memory_cell", [], []⟩,
  .crypto ⟨"unfolding", [], ["recurisve"]⟩,
  .assertion (.app "happens" [.cvar "init"]),
  .query (.quant .all [("i", "Idx")] (.app "happens" [.app "s" [.cvar "i"]]))]

def opt : Opt := ⟨false, false, false, false, true, true, 100⟩

/-- What is computed. -/
def check : Out LProblem → Bool
  | .ok P => P.tbl.isEmpty && P.crypto == [.memoryCell, .unfolding true false] && (P.query :: P.assertions).all (formOk P noC) &&
      P.steps.all (fun s => s.vars.all fun v => (s.message.vars ++ s.condition.vars).any fun w => w.id == v.id) &&
      match toProb opt P with
      | some B => B.file.isSome
      | none => false
  | _ => false

theorem checked : check (load id 10 false (env0 true) file) = true := by decide +kernel

theorem loads : ∃ P B g, load id 10 false (env0 true) file = .ok P ∧ P.tbl = [] ∧ P.crypto = [.memoryCell, .unfolding true false] ∧
    UserForms P ∧ ParamsUsed P ∧ toProb opt P = some B ∧ B.file = some g := by
  have h := checked
  cases e : load id 10 false (env0 true) file with
  | ok P =>
    rw [e] at h
    simp only [check, Bool.and_eq_true] at h
    obtain ⟨⟨⟨⟨h1, h2⟩, h3⟩, h4⟩, h5⟩ := h
    cases e' : toProb opt P with
    | none => rw [e'] at h5; cases h5
    | some B =>
      rw [e'] at h5
      obtain ⟨g, hg⟩ := Option.isSome_iff_exists.1 h5
      refine ⟨P, B, g, rfl, List.isEmpty_iff.1 h1, by simpa using h2, ?_, ?_, e', hg⟩
      · exact List.all_eq_true.1 h3
      · intro s hs v hv
        have := List.all_eq_true.1 (List.all_eq_true.1 h4 s hs) v hv
        obtain ⟨w, hw, e⟩ := List.any_eq_true.1 this
        exact List.mem_map.2 ⟨w, hw, by simpa using e⟩
  | _ => rw [e] at h; cases h

/-- The declarations. -/
def FE : DEnv := fileEnv (env0 true) file

theorem declared : declaredSteps (env0 true) file = [("s", [("i", .user 6)], sDecl), ("init", [], initDecl)] := rfl
theorem declaredC : declaredCells (env0 true) file = [("c", [.user 6])] := rfl

/-! ### The file is well sorted and clean -/

theorem happens_ws {Γ : List (String × Srt)} {t : Tm} (h : Ws FE.toEnv .ev Γ [] t .step) : Ws FE.toEnv .ev Γ [] (.app "happens" [t]) .bool :=
  Ws.app (i := ⟨.sym "happens", .fixed [.step] .bool, false⟩) (a := [.step]) (o := .bool) rfl rfl rfl (.cons h rfl .nil)

theorem init_ws' {Γ : List (String × Srt)} (h : "init" ∉ names Γ) : Ws FE.toEnv .ev Γ [] (.cvar "init") .step :=
  Ws.const (i := ⟨.sym "init", .fixed [] .step, false⟩) (o := .step) h (by simp) rfl rfl

theorem s_ws {Γ : List (String × Srt)} {x : String} (h : (x, .user 6) ∈ Γ) : Ws FE.toEnv .ev Γ [] (.app "s" [.cvar x]) .step :=
  Ws.app (i := ⟨.sym "s", .fixed [.user 6] .step, false⟩) (a := [.user 6]) (o := .step) rfl rfl rfl (.cons (.var h (by decide)) rfl .nil)

theorem g_ws {Γ : List (String × Srt)} {x : String} (h : (x, .user 6) ∈ Γ) : Ws FE.toEnv .sym Γ [] (.app "g" [.cvar x]) .message :=
  Ws.app (i := ⟨.sym "g", .fixed [.user 6] .message, false⟩) (a := [.user 6]) (o := .message) rfl rfl rfl (.cons (.var h (by decide)) rfl .nil)

theorem sDecl_ws : StepWs FE [("i", .user 6)] sDecl where
  nodup := by decide
  message := Ws.app (i := ⟨.sym "f", .fixed [.message] .message, false⟩) (a := [.message]) (o := .message) rfl rfl rfl
    (.cons (.var (s := .message) (by simp) (by decide)) rfl .nil)
  condition := .eqSym (.cons (g_ws (by simp)) rfl (.cons (.var (s := .message) (by simp) (by decide)) rfl .nil))
  assigns a ha := by
    simp only [sDecl, List.mem_singleton] at ha
    subst ha
    refine ⟨[], [.user 6], .nil, by simp [names], ?_, by with_unfolding_all rfl, rfl, ?_, g_ws (by simp)⟩
    · intro x hx
      simp [names] at hx
    · intro p hp
      simp only [List.zip_cons_cons, List.zip_nil_right, List.mem_singleton] at hp
      subst hp
      exact .var (by simp) (by decide)

theorem file_ws : FileWs (env0 true) file where
  ok := by
    obtain ⟨P, _, _, hP, _⟩ := loads
    simp only [load] at hP
    obtain ⟨D1, h1, hP⟩ := bind_ok.1 hP
    obtain ⟨Fq, h2, hP⟩ := bind_ok.1 hP
    exact ((C24_accepted_iff _ _ Fq.1 Fq.2).1 (bind_ok.2 ⟨D1, h1, h2⟩)).1
  texts t ht := by
    simp only [file, List.mem_cons, List.not_mem_nil, reduceCtorEq, or_false, false_or, Decl.assertion.injEq, Decl.lem.injEq, Decl.query.injEq] at ht
    rcases ht with rfl | rfl
    · exact ⟨.bool, happens_ws (init_ws' (by simp)), rfl⟩
    · refine ⟨.bool, .quant (Δ := [("i", .user 6)]) ⟨.cons ⟨rfl, by with_unfolding_all rfl⟩ .nil, by simp [names], ?_⟩ (happens_ws (s_ws (by simp))) rfl, rfl⟩
      intro x hx
      exact ⟨by simp, by simp, .inl rfl⟩
  steps d hd := by
    simp only [file, List.mem_cons, List.not_mem_nil, reduceCtorEq, or_false, false_or, Decl.step.injEq] at hd
    subst hd
    exact ⟨[("i", .user 6)], .cons ⟨rfl, by with_unfolding_all rfl⟩ .nil, sDecl_ws⟩
  orders o ho := by
    simp only [file, List.mem_cons, List.not_mem_nil, reduceCtorEq, or_false, false_or, Decl.order.injEq] at ho
    subst ho
    exact ⟨[("i", .user 6)], .cons ⟨rfl, by with_unfolding_all rfl⟩ .nil, by simp [names], nofun, s_ws (by simp), init_ws' (by simp [names])⟩
  crypto c hc := by
    simp only [file, List.mem_cons, List.not_mem_nil, reduceCtorEq, or_false, false_or, Decl.crypto.injEq] at hc
    rcases hc with rfl | rfl
    · exact ⟨_, .memoryCell⟩
    · exact ⟨.unfolding true false, (C45_recognised_partial _ _ _).1 (by with_unfolding_all rfl)⟩

theorem happens_clean {L : List String} {t : Tm} (h : Clean FE.toEnv .ev L [] t) : Clean FE.toEnv .ev L [] (.app "happens" [t]) :=
  .app (i := ⟨.sym "happens", .fixed [.step] .bool, false⟩) rfl rfl (by simp [RealmsOk, FSig.args, FSig.realm, realmOf, argRealm]) (.cons h .nil)

theorem s_clean {L : List String} {x : String} (h : x ∈ L) : Clean FE.toEnv .ev L [] (.app "s" [.cvar x]) :=
  .app (i := ⟨.sym "s", .fixed [.user 6] .step, false⟩) rfl rfl (by simp [RealmsOk, FSig.args, FSig.realm, realmOf, argRealm])
    (.cons (.cvarVar h) .nil)

theorem g_clean {L : List String} {x : String} (h : x ∈ L) : Clean FE.toEnv .sym L [] (.app "g" [.cvar x]) :=
  .app (i := ⟨.sym "g", .fixed [.user 6] .message, false⟩) rfl rfl (by simp [RealmsOk, FSig.args, FSig.realm, realmOf, argRealm])
    (.cons (.cvarVar h) .nil)

theorem file_clean : FileClean (env0 true) file where
  texts t ht := by
    simp only [file, List.mem_cons, List.not_mem_nil, reduceCtorEq, or_false, false_or, Decl.assertion.injEq, Decl.lem.injEq, Decl.query.injEq] at ht
    rcases ht with rfl | rfl
    · exact happens_clean (.cvarFun (by simp) (by simp))
    · exact .quant (fun _ => ⟨by simp, by simp⟩) (happens_clean (s_clean (by simp)))
  steps d hd := by
    simp only [file, List.mem_cons, List.not_mem_nil, reduceCtorEq, or_false, false_or, Decl.step.injEq] at hd
    subst hd
    exact {
      names := by decide
      message := .app (i := ⟨.sym "f", .fixed [.message] .message, false⟩) rfl rfl
        (by simp [RealmsOk, FSig.args, FSig.realm, realmOf, argRealm]) (.cons (.cvarVar (by simp [stepNames])) .nil)
      condition := .eqSym (.hardEq2 (.cons (g_clean (by simp [stepNames, sDecl])) (.cons (.cvarVar (by simp [stepNames])) .nil)))
      args := by
        intro a ha t ht
        simp only [sDecl, List.mem_singleton] at ha
        subst ha
        simp only [List.mem_singleton] at ht
        subst ht
        exact .cvarVar (by simp [stepNames, freshOf, sDecl])
      terms := by
        intro a ha
        simp only [sDecl, List.mem_singleton] at ha
        subst ha
        exact g_clean (by simp [stepNames, freshOf, sDecl]) }
  orders o ho := by
    simp only [file, List.mem_cons, List.not_mem_nil, reduceCtorEq, or_false, false_or, Decl.order.injEq] at ho
    subst ho
    exact ⟨by decide, s_clean (by simp [orderVars, oDecl]), .cvarFun (by simp [orderVars, oDecl]) (by simp [orderVars, oDecl]), nofun⟩

/-! ### An execution: `init`, `s(0)`, `s(1)` -/

abbrev pts : List V := [.pt 0 [], .pt 1 [0], .pt 1 [1]]

/-- The inputs are such that only the condition of `s(0)` is true. -/
def sym (n : String) (l : List V) : V :=
  match n, l with
  | "happens", [a] => .tt (a ∈ pts)
  | "leq", [a, b] => .tt (∃ i j : Nat, i ≤ j ∧ pts[i]? = some a ∧ pts[j]? = some b)
  | "lt", [a, b] => .tt (∃ i j : Nat, i < j ∧ pts[i]? = some a ∧ pts[j]? = some b)
  | "gt", [b, a] => .tt (¬ ∃ i j : Nat, i < j ∧ pts[i]? = some a ∧ pts[j]? = some b)
  | "ta$iff", [a, b] => .tt (a = b)
  | "pred", [.pt 1 [0]] => .pt 0 []
  | "pred", [.pt 1 [1]] => .pt 1 [0]
  | "init", [] => .pt 0 []
  | "s", [.idx 0] => .pt 1 [0]
  | "s", [.idx 1] => .pt 1 [1]
  | "cond", [.pt 1 [0]] => .tt True
  | "cond", [.pt 1 [1]] => .tt False
  | "cond", _ => .tt True
  | "exec", [.pt 1 [1]] => .tt False
  | "exec", _ => .tt True
  | "msg", [.pt 1 [0]] => .msg 1
  | "msg", [.pt 1 [1]] => .msg 6
  | "g", [.idx n] => .msg n
  | "g", _ => .msg 0
  | "f", [.msg n] => .msg (n + 1)
  | "c", [.idx 1, .pt 1 [1]] => .msg 1
  | "c", [.idx 1, _] => .msg 0
  | "c", [.idx n, _] => .msg n
  | "c", [_, _] => .msg 0
  | _, _ => .undef

open Classical in
noncomputable def pf : PF → List V → V
  | .tru, _ | .taTrue, _ => .tt True
  | .fls, _ | .taFalse, _ => .tt False
  | .and, l | .taAnd, l => .tt (∀ a ∈ l, a.truth)
  | .or, l | .taOr, l => .tt (∃ a ∈ l, a.truth)
  | .not, [a] | .taNot, [a] => .tt (¬ a.truth)
  | .imp, [a, b] | .taImp, [a, b] => .tt (a.truth → b.truth)
  | .eq, [a, b] | .taEq, [a, b] => .tt (a = b)
  | .eq, l => .tt (∀ a ∈ l, ∀ b ∈ l, a = b)
  | .ite, [c, a, b] | .taIte, [c, a, b] => if c.truth then a else b
  | .evalMsg, [a] | .evalCond, [a] | .nameToMsg, [a] => a
  | .input, [.pt 1 [0]] => .msg 0
  | .input, [.pt 1 [1]] => .msg 5
  | .sym n, l => sym n l
  | _, _ => .undef

/-- Only the sort of the points matters. -/
def dom : Srt → V → Prop
  | .step, d => d ∈ pts ∨ d = .undef
  | _, _ => True

noncomputable def fn : BF → List V → V
  | .f x, l => pf x l
  | .ev x, l => pf x l
  | _, _ => .undef

noncomputable def M : Str BF V where
  fn := fn
  truth := V.truth
  ofProp := V.tt
  truth_ofProp _ := Iff.rfl
  dom := dom

noncomputable def I0 : Prs.Sem V := ⟨M.comap .f, fun _ _ _ => .undef, fun _ _ _ _ => .undef, fun _ _ _ => .undef, fun _ _ _ => .undef, fun _ _ _ => .undef⟩

noncomputable def I : Prs.Sem V :=
  let D (s : String) : List (String × Srt) := if s = "s" then [("i", .user 6)] else []
  { I0 with
    msg := fun s r vs => den FE.toEnv I0 r (ext I0.junk (D s ++ [("in", .message)]) (vs ++ [I0.M.fn .input [I0.M.fn (.sym s) vs]]) [])
      (if s = "s" then sDecl.message else initDecl.message)
    cnd := fun s r vs => den FE.toEnv I0 r (ext I0.junk (D s ++ [("in", .message)]) (vs ++ [I0.M.fn .input [I0.M.fn (.sym s) vs]]) [])
      (if s = "s" then sDecl.condition else initDecl.condition) }

theorem FE_steps {s : String} {c : StepInfo} {i : FInfo} (h : FE.toEnv.steps s = some c) (hf : FE.toEnv.functions s = some i) :
    (s = "s" ∧ c = ⟨[("i", .user 6)], sDecl.message, sDecl.condition⟩ ∧ i.sym = .sym "s") ∨
      (s = "init" ∧ c = ⟨[], initDecl.message, initDecl.condition⟩ ∧ i.sym = .sym "init") := by
  simp only [DEnv.toEnv] at h hf
  cases e : FE.functions.lookup s with
  | none => rw [e] at h; cases h
  | some x =>
    rw [e] at h hf
    cases x <;> simp only [Option.bind_some, Cache.stepInfo, reduceCtorEq, Option.some.injEq] at h
    simp only [Option.map_some, Cache.info, Option.some.injEq] at hf
    subst h hf
    have hm := lookup_map_mem e
    have : ∀ n ps d, (n, Cache.step ps d) ∈ FE.functions → (n, ps, d) ∈ stepsOf FE.functions := by
      intro n ps d h
      exact List.mem_filterMap.2 ⟨_, h, rfl⟩
    have hm := this _ _ _ hm
    rw [FE, stepsOf_fileEnv (env0_base _), declared] at hm
    simp only [List.mem_cons, List.not_mem_nil, or_false, Prod.mk.injEq] at hm
    rcases hm with ⟨rfl, rfl, rfl⟩ | ⟨rfl, rfl, rfl⟩
    · exact .inl ⟨rfl, rfl, rfl⟩
    · exact .inr ⟨rfl, rfl, rfl⟩

theorem I_ok : I.Ok FE.toEnv where
  mac m c h := by cases h
  msg s c i h hf r vs _ := by
    obtain ⟨sym, sig, nm⟩ := i
    rcases FE_steps h hf with ⟨rfl, rfl, e⟩ | ⟨rfl, rfl, e⟩ <;> simp only at e <;> subst e <;> cases r <;> rfl
  cnd s c i h hf r vs _ := by
    obtain ⟨sym, sig, nm⟩ := i
    rcases FE_steps h hf with ⟨rfl, rfl, e⟩ | ⟨rfl, rfl, e⟩ <;> simp only at e <;> subst e <;> cases r <;> rfl

theorem logic : FileLogic I.M where
  tru := rfl
  fls := rfl
  and _ := rfl
  or _ := rfl
  not _ := rfl
  imp _ _ := rfl
  eq _ _ := rfl
  ite_true _ _ _ h := if_pos h
  ite_false _ _ _ h := if_neg h

theorem s_val (v : V) : (v = .idx 0 ∧ sym "s" [v] = .pt 1 [0]) ∨ (v = .idx 1 ∧ sym "s" [v] = .pt 1 [1]) ∨
    (v ≠ .idx 0 ∧ v ≠ .idx 1 ∧ sym "s" [v] = .undef) := by
  match v with
  | .idx 0 => exact .inl ⟨rfl, rfl⟩
  | .idx 1 => exact .inr (.inl ⟨rfl, rfl⟩)
  | .idx (n + 2) => exact .inr (.inr ⟨by simp, by simp, rfl⟩)
  | .undef | .pt _ _ | .tt _ | .msg _ => exact .inr (.inr ⟨by simp, by simp, rfl⟩)

theorem run : FileRun (env0 true) file I.M pts .undef (.pt 0 []) where
  nodup := by simp
  undef_not := by simp
  head := rfl
  dom_step _ := Iff.rfl
  happens _ := rfl
  leq _ _ := rfl
  lt _ _ := rfl
  pred_succ := by
    intro i a b h1 h2
    match i, h1, h2 with
    | 0, h1, h2 => cases h1; cases h2; rfl
    | 1, h1, h2 => cases h1; cases h2; rfl
    | n + 2, h1, h2 => simp at h2
  pred_first := rfl
  pred_undef := rfl
  init := rfl
  inst := by
    intro p hp as has
    rw [declared] at hp
    simp only [List.mem_cons, List.not_mem_nil, or_false] at hp
    rcases hp with rfl | rfl
    · match as, has with
      | [v], _ =>
        show sym "s" [v] ∈ pts ∨ sym "s" [v] = .undef
        rcases s_val v with ⟨-, h⟩ | ⟨-, h⟩ | ⟨-, -, h⟩ <;> rw [h] <;> simp
    · cases has
      exact .inl (List.mem_cons_self)
  inj := by
    intro p hp p' hp' as bs has hbs
    rw [declared] at hp hp'
    simp only [List.mem_cons, List.not_mem_nil, or_false] at hp hp'
    rcases hp with rfl | rfl <;> rcases hp' with rfl | rfl
    · match as, bs, has, hbs with
      | [v], [w], _, _ =>
        show sym "s" [v] ∈ pts → sym "s" [v] = sym "s" [w] → _
        rcases s_val v with ⟨rfl, h⟩ | ⟨rfl, h⟩ | ⟨-, -, h⟩ <;> rcases s_val w with ⟨rfl, h'⟩ | ⟨rfl, h'⟩ | ⟨-, -, h'⟩ <;> simp [h, h']
    · cases hbs
      match as, has with
      | [v], _ =>
        show sym "s" [v] ∈ pts → sym "s" [v] = .pt 0 [] → _
        rcases s_val v with ⟨rfl, h⟩ | ⟨rfl, h⟩ | ⟨-, -, h⟩ <;> rw [h] <;> simp
    · cases has
      match bs, hbs with
      | [v], _ =>
        show _ → V.pt 0 [] = sym "s" [v] → _
        rcases s_val v with ⟨rfl, h⟩ | ⟨rfl, h⟩ | ⟨-, -, h⟩ <;> rw [h] <;> simp
    · cases has
      cases hbs
      exact fun _ _ => ⟨rfl, rfl⟩
  surj := by
    intro d hd
    rw [declared]
    simp only [List.mem_cons, List.not_mem_nil, or_false] at hd
    rcases hd with rfl | rfl | rfl
    · exact ⟨("init", [], initDecl), by simp, [], .nil, rfl⟩
    · exact ⟨("s", [("i", .user 6)], sDecl), by simp, [.idx 0], .cons trivial .nil, rfl⟩
    · exact ⟨("s", [("i", .user 6)], sDecl), by simp, [.idx 1], .cons trivial .nil, rfl⟩

theorem order : OrderSays FE I pts oDecl := by
  show ∀ ds, _ → _
  intro ds hds
  match ds, hds with
  | [v], _ =>
    intro _ _ _ _
    show sym "s" [v] ∈ pts → ∃ i j : Nat, i ≤ j ∧ pts[i]? = some (.pt 0 []) ∧ pts[j]? = some (sym "s" [v])
    intro h
    obtain ⟨j, hj⟩ := List.mem_iff_getElem?.1 h
    exact ⟨0, j, Nat.zero_le _, rfl, hj⟩

theorem unfolds : UnfoldSays (env0 true) file FE I pts true false where
  prop x := by
    show ∃ p, sym "exec" [x] = V.tt p
    unfold sym
    split <;> simp_all
    · exact ⟨False, id⟩
    · exact ⟨True, trivial⟩
  macros := by
    intro p hp as has
    rw [declared] at hp
    simp only [List.mem_cons, List.not_mem_nil, or_false] at hp
    rcases hp with rfl | rfl
    · match as, has with
      | [v], _ =>
        intro h
        have h : sym "s" [v] ∈ pts := h
        rcases s_val v with ⟨rfl, -⟩ | ⟨rfl, -⟩ | ⟨-, -, h'⟩
        · refine ⟨?_, rfl⟩
          show V.tt True = V.tt (V.msg 0 = V.msg 0)
          simp
        · refine ⟨?_, rfl⟩
          show V.tt False = V.tt (V.msg 1 = V.msg 5)
          simp
        · rw [h'] at h; simp at h
    · cases has
      intro _
      exact ⟨rfl, rfl⟩
  init := by
    intro t ht
    cases ht
    exact trivial
  exec := by
    intro _ i t ht
    match i, ht with
    | 0, ht =>
      cases ht
      exact ⟨fun _ j e h1 h2 => by omega, fun _ => trivial⟩
    | 1, ht =>
      cases ht
      refine ⟨fun _ j e h1 h2 he => ?_, fun _ => trivial⟩
      obtain rfl : j = 1 := by omega
      cases he
      exact trivial
    | 2, ht =>
      cases ht
      exact ⟨fun h => h.elim, fun h => h 2 _ (by omega) (by omega) rfl⟩
    | n + 3, ht => simp at ht
  direct := by
    intro h
    simp at h

theorem c_val (v d : V) : (v = .idx 1 ∧ d = .pt 1 [1] ∧ sym "c" [v, d] = .msg 1) ∨ (v = .idx 1 ∧ d ≠ .pt 1 [1] ∧ sym "c" [v, d] = .msg 0) ∨
    (v ≠ .idx 1 ∧ sym "c" [v, d] = sym "g" [v]) := by
  match v with
  | .idx 0 => exact .inr (.inr ⟨by simp, rfl⟩)
  | .idx 1 =>
    by_cases h : d = .pt 1 [1]
    · subst h; exact .inl ⟨rfl, rfl, rfl⟩
    · refine .inr (.inl ⟨rfl, h, ?_⟩)
      unfold sym
      split <;> simp_all
  | .idx (n + 2) => exact .inr (.inr ⟨by simp, rfl⟩)
  | .undef | .pt _ _ | .tt _ | .msg _ => exact .inr (.inr ⟨by simp, rfl⟩)

theorem writes {d v : V} {ks : List V} : WritesText (env0 true) file FE I "c" d ks v ↔
    ∃ k, d = sym "s" [k] ∧ ks = [k] ∧ v = sym "g" [k] := by
  constructor
  · rintro ⟨p, hp, a, ha, hc, as, bs, has, hbs, h1, h2, h3⟩
    rw [declared] at hp
    simp only [List.mem_cons, List.not_mem_nil, or_false] at hp
    rcases hp with rfl | rfl
    · simp only [sDecl, List.mem_singleton] at ha
      subst ha
      cases hbs
      match as, has with
      | [k], _ => exact ⟨k, h1.symm, h2.symm, h3.symm⟩
    · simp [initDecl] at ha
  · rintro ⟨k, rfl, rfl, rfl⟩
    refine ⟨("s", [("i", .user 6)], sDecl), by rw [declared]; simp, _, List.mem_singleton_self _, rfl, [k], [], .cons trivial .nil, .nil, rfl, rfl, rfl⟩

theorem cells : CellsSay (env0 true) file FE I where
  write := by
    intro c hc ks d _ _ v hw
    rw [declaredC] at hc
    simp only [List.mem_singleton] at hc
    subst hc
    obtain ⟨k, rfl, rfl, rfl⟩ := writes.1 hw
    show sym "c" [k, sym "s" [k]] = sym "g" [k]
    rcases c_val k (sym "s" [k]) with ⟨rfl, _, _⟩ | ⟨rfl, h, _⟩ | ⟨_, h⟩
    · rfl
    · exact (h rfl).elim
    · exact h
  keep := by
    intro c hc ks d hks hd hw
    rw [declaredC] at hc
    simp only [List.mem_singleton] at hc
    subst hc
    match ks, hks with
    | [k], _ =>
      show sym "c" [k, d] = sym "c" [k, sym "pred" [d]]
      rcases c_val k d with ⟨rfl, rfl, _⟩ | ⟨rfl, h, h'⟩ | ⟨h, h'⟩
      · exact (hw _ (writes.2 ⟨.idx 1, rfl, rfl, rfl⟩)).elim
      · have hd : d ∈ pts ∨ d = .undef := hd
        simp only [List.mem_cons, List.not_mem_nil, or_false] at hd
        rcases hd with (rfl | rfl | rfl) | rfl
        · rfl
        · rfl
        · exact (h rfl).elim
        · rfl
      · rcases c_val k (sym "pred" [d]) with ⟨e, _⟩ | ⟨e, _⟩ | ⟨_, e⟩
        · exact (h e).elim
        · exact (h e).elim
        · rw [h', e]

theorem points_sig : FE.functions.all (fun p => match (p.2.info p.1).sig with
    | .fixed _ .step => p.1 == "pred" || p.1 == "init" || p.1 == "s"
    | _ => true) = true := by decide +kernel

theorem pred_val (d : V) : sym "pred" [d] ∈ pts ∨ sym "pred" [d] = .undef := by
  unfold sym
  split <;> simp_all

section
variable {P : LProblem}

theorem sorted (hP : P.env = FE) : Sorted P I.M := by
  intro x a s hx ds hds
  cases s with
  | step =>
    cases x with
    | sym n =>
      simp only [sigOf, hP] at hx
      cases hl : FE.functions.lookup n with
      | none => rw [hl] at hx; cases hx
      | some c =>
        rw [hl] at hx
        simp only [Option.map_some] at hx
        have hm := List.all_eq_true.1 points_sig _ (lookup_map_mem hl)
        cases hs : (c.info n).sig with
        | fixed a' o' =>
          rw [hs] at hx
          simp only [Option.some.injEq, Prod.mk.injEq] at hx
          obtain ⟨rfl, rfl⟩ := hx
          simp only [hs, Bool.or_eq_true, beq_iff_eq] at hm
          show sym n ds ∈ pts ∨ sym n ds = .undef
          rcases hm with (rfl | rfl) | rfl
          · match ds with
            | [d] => exact pred_val d
            | [] => exact .inr rfl
            | _ :: _ :: _ => exact .inr (by simp [sym])
          · match ds with
            | [] => exact .inl (by simp [sym])
            | [_] => exact .inr rfl
            | _ :: _ :: _ => exact .inr rfl
          · match ds with
            | [v] => rcases s_val v with ⟨-, h⟩ | ⟨-, h⟩ | ⟨-, -, h⟩ <;> rw [h] <;> simp
            | [] => exact .inr rfl
            | _ :: _ :: _ => exact .inr (by simp [sym])
        | _ => rw [hs] at hx; cases hx
    | taq k =>
      simp only [sigOf] at hx
      split at hx <;> cases hx
    | _ => cases hx
  | _ => exact trivial

theorem val (s : Srt) (d : V) : (cfg opt P).val M s d = d := by
  unfold Cfg.val
  cases s <;> rfl

theorem vals : ∀ (l : List Srt) (ds : List V), l.length = ds.length → List.zipWith ((cfg opt P).val M) l ds = ds
  | [], [], _ => rfl
  | s :: l, d :: ds, h => by
    simp only [List.length_cons, Nat.add_right_cancel_iff] at h
    rw [List.zipWith_cons_cons, val, vals l ds h]

theorem base_of {f ev : BF} {a : List Srt} {s : Srt} (h : ekind P f = .base a s ev) : ∃ x, f = .f x ∧ ev = .ev x := by
  unfold ekind at h
  split at h
  all_goals first
    | (cases h; done)
    | (repeat' split at h) <;> first
      | (cases h; done)
      | (cases h; exact ⟨_, rfl, rfl⟩)

theorem conn_of {f ev : BF} {a : List Srt} (h : ekind P f = .conn a ev) {ds : List V} (hl : a.length = ds.length) : M.fn f ds = M.fn ev ds := by
  unfold ekind at h
  split at h
  all_goals first
    | (cases h; done)
    | (cases h
       match ds, hl with
       | [], _ => rfl
       | [_, _], _ => rfl)
    | (repeat' split at h) <;> first
      | (cases h; done)
      | (cases h
         match ds, hl with
         | [_, _], _ => simp_all [M, fn, pf, sym])

theorem homo (ht : P.tbl = []) : Homo (cfg opt P) M where
  base f args out ev h ds hds := by
    obtain ⟨x, rfl, rfl⟩ := base_of h
    rw [val, vals _ _ hds.length_eq]
    rfl
  conn f args ev h ds hds := by
    rw [val, vals _ _ hds.length_eq]
    exact conn_of h hds.length_eq
  eqTa f h a b _ _ := by
    obtain rfl := ekind_eqTa h
    rw [val, val, val]
    rfl
  notTa f h a _ := by
    obtain rfl := ekind_notTa h
    rw [val, val]
    rfl
  ite f h c a b _ _ _ := by
    obtain rfl := ekind_ite h
    simp only [val]
    exact ⟨fun h => if_pos h, fun h => if_neg h⟩
  taq f q bound free content h := by
    obtain ⟨k, b, -, h, -⟩ := ekind_taq h
    rw [ht] at h
    simp at h
  fst f bound free cond succ fail h := by
    obtain ⟨k, c, l, r, -, h, -⟩ := ekind_fst h
    rw [ht] at h
    simp at h

theorem exec (hP : P.env = FE) (ht : P.tbl = []) : FileExec opt (env0 true) file P M I pts .undef (.pt 0 []) where
  sem := rfl
  ok := by rw [hP]; exact I_ok
  real := by rw [ht]; intro n q h; simp at h
  logic := logic
  sorted := sorted hP
  run := run
  orders := by
    intro x hx
    have : ordersOf file = [oDecl] := rfl
    rw [this, List.mem_singleton] at hx
    subst hx
    rw [hP]
    exact order
  gt := by
    intro a b _ _ h
    have h : V.tt _ = V.tt _ := h
    exact iff_not_self (Iff.of_eq (V.tt.inj h).symm)
  homo := homo ht
  skolem := by
    intro f bound free cond succ fail h
    obtain ⟨k, c, l, r, -, h, -⟩ := ekind_fst h
    rw [ht] at h
    simp at h
  ident := fun _ d => ⟨fun _ => rfl, fun _ => rfl⟩

end

/-- The hypotheses of `C84_execution_partial`, `C84_assumptions_partial` and `C84_sound_partial` hold of the file and this execution, in
which the condition of `s(0)` is true and that of `s(1)` is not. -/
example : ∃ P B g, load id 10 false (env0 true) file = .ok P ∧ toProb opt P = some B ∧ B.file = some g ∧ FileWs (env0 true) file ∧
    FileClean (env0 true) file ∧ TblPlain P.tbl ∧ UserForms P ∧ opt.legacy = false ∧
    FileExec opt (env0 true) file P M I pts .undef (.pt 0 []) ∧
    (∀ c ∈ P.crypto.zipIdx, Says opt (env0 true) file P B M I pts c) ∧
    (∀ t ∈ assertionsOf file, I.M.truth (den P.env.toEnv I .ev [] t)) ∧ P.crypto.length = 2 ∧
    CondHolds I.M (.pt 1 [0]) ∧ ¬ CondHolds I.M (.pt 1 [1]) := by
  obtain ⟨P, B, g, h1, h2, h3, h4, h5, h6, h7⟩ := loads
  have hP : P.env = FE := (load_loaded (fun _ => List.Perm.refl _) (env0_base _) h1).env
  refine ⟨P, B, g, h1, h6, h7, file_ws, file_clean, by rw [h2]; simp [TblPlain], h4, rfl, exec hP h2, ?_, ?_, by rw [h3]; rfl, trivial, fun h => h⟩
  · rw [h3]
    intro c hc
    simp only [List.zipIdx_cons, List.zipIdx_nil, List.mem_cons, List.not_mem_nil, or_false] at hc
    rcases hc with rfl | rfl
    · exact ⟨h5, hP ▸ cells⟩
    · show UnfoldSays (env0 true) file P.env I pts true false
      rw [hP]
      exact unfolds
  · intro t ht
    have : assertionsOf file = [.app "happens" [.cvar "init"]] := rfl
    rw [this, List.mem_singleton] at ht
    subst ht
    rw [hP]
    show V.pt 0 [] ∈ pts
    simp

end Ex
end Bld
end CV
