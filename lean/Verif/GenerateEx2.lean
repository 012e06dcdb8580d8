import Verif.GenerateEx
set_option linter.unusedSimpArgs false
set_option linter.unusedVariables false
set_option linter.unnecessarySeqFocus false
set_option linter.constructorNameAsVariable false
/-
The problem of `GenerateEx`, in the evaluated realm: its file and the execution meet the hypotheses of `C71_sound_partial` and
`C71_proved_partial`.
-/
namespace CV
namespace Gen
namespace GEx
open Dep SmtM SmtS Ev Cry Fm

theorem user_ok (n : Nat) : NameOK (S.sortName (.user n)) := by
  show NameOK ('U' :: List.replicate n 'u')
  refine ⟨List.cons_ne_nil _ _, ?_⟩
  intro c hc
  rcases List.mem_cons.1 hc with rfl | hc
  · decide
  · rw [(List.mem_replicate.1 hc).2]; decide

theorem sort_inj (s t : Srt) (h : S.sortName s = S.sortName t) : s = t := by
  have key : ∀ s ∈ ([.bool, .message, .condition, .step, .name, .bitstring, .index] : List Srt),
      ∀ t ∈ ([.bool, .message, .condition, .step, .name, .bitstring, .index] : List Srt),
        (sortName s).head? = (sortName t).head? → s = t := by decide
  have hu : ∀ s ∈ ([.bool, .message, .condition, .step, .name, .bitstring, .index] : List Srt), (sortName s).head? ≠ some 'U' := by decide
  have hc : ∀ s : Srt, s ∈ ([.bool, .message, .condition, .step, .name, .bitstring, .index] : List Srt) ∨ ∃ n, s = .user n := by
    intro s
    cases s
    case user n => exact .inr ⟨n, rfl⟩
    all_goals exact .inl (by decide)
  have h : sortName s = sortName t := h
  rcases hc s with hs | ⟨n, rfl⟩ <;> rcases hc t with ht | ⟨m, rfl⟩
  · exact key s hs t ht (by rw [h])
  · exact absurd (by rw [h]; rfl) (hu s hs)
  · exact absurd (by rw [← h]; rfl) (hu t ht)
  · have := congrArg List.length h
    simp only [sortName, List.length_cons, List.length_replicate, Nat.add_right_cancel_iff] at this
    rw [this]

theorem names : Names S where
  ok f _ := ⟨nofun, by
    intro c hc
    simp only [S, List.mem_cons, List.mem_replicate] at hc
    rcases hc with rfl | ⟨_, rfl⟩ <;> decide⟩
  res f _ h := by
    have key : ∀ w ∈ reserved, w.head? ≠ some 'z' := by decide
    exact key _ h rfl
  var f v _ h := by
    have hs : ∀ s, ∃ c r, sortName s = c :: r := by
      intro s
      cases s <;> exact ⟨_, _, rfl⟩
    obtain ⟨c, r, hc⟩ := hs v.sort
    have hc : S.sortName v.sort = c :: r := hc
    have : (vn S v)[1]? = some 'X' := by
      simp only [vn, SymInfo.varName, hc]
      rfl
    rw [← h] at this
    simp only [S, List.getElem?_cons_succ, List.getElem?_replicate] at this
    split at this <;> cases this
  sortOK s := by
    cases s
    case user n => exact user_ok n
    all_goals decide
  inj f g _ _ h := by
    simp only [S, List.cons.injEq, true_and] at h
    have := congrArg List.length h
    simp only [List.length_replicate] at this
    exact Encodable.encode_injective this
  sortInj := sort_inj

/-! ### The declarations -/

theorem declarations : (file true false).declarations = [.sort .message, .sort .index, .sort .step, .alias .message .bitstring,
    .alias .bool .condition, .datatypes [(.name, [(.s (.name 0), [.dest (.s (.name 0)) 0])])]] ++
    ([.s .cast, .s (.user 0), .s (.user 1), .s (.user 2), .s (.ta .tru), .s (.cell 0), .s (.step 0), .s (.step 1), .s .happens, .s .lt, .s .leq,
      .s .gt, .s .pred, .s .cond, .s .msg, .s .exec, .s .input, .s .evalMsg, .s .evalCond] : List GF).map Decl.free := rfl

theorem written2_msg (n : Nat) : ∃ k, written2 n = .msg k := by
  unfold written2
  split <;> exact ⟨_, rfl⟩

theorem memory_msg (d : V) : ∃ k, memory d = .msg k := by
  unfold memory
  split
  · exact written2_msg _
  · exact ⟨_, rfl⟩

theorem cond_tt (d : V) : ∃ p, cond d = .tt p := by
  unfold cond
  split <;> exact ⟨_, rfl⟩

theorem typed1 {s : Srt} {as : List V} (h : Typed M.dom [s] as) : ∃ a, as = [a] ∧ dom s a := by
  match as, h with
  | [a], h => exact ⟨a, rfl, h.1⟩

theorem typed2 {s t : Srt} {as : List V} (h : Typed M.dom [s, t] as) : ∃ a b, as = [a, b] ∧ dom s a ∧ dom t b := by
  match as, h with
  | [a, b], h => exact ⟨a, b, rfl, h.1, h.2.1⟩

theorem typed0 {as : List V} (h : Typed M.dom [] as) : as = [] := by
  match as, h with
  | [], h => rfl

/-- The symbols declared take their values in their sorts. -/
theorem typed_fn : ∀ f ∈ ([.s .cast, .s (.user 0), .s (.user 1), .s (.user 2), .s (.ta .tru), .s (.cell 0), .s (.step 0), .s (.step 1),
      .s .happens, .s .lt, .s .leq,
      .s .gt, .s .pred, .s .cond, .s .msg, .s .exec, .s .input, .s .evalMsg, .s .evalCond] : List GF), declSem S M (.free f) := by
  simp only [List.forall_mem_cons, List.not_mem_nil, false_implies, implies_true, and_true]
  refine ⟨?_, ?_, ?_, ?_, ?_, ?_, ?_, ?_, ?_, ?_, ?_, ?_, ?_, ?_, ?_, ?_, ?_, ?_, ?_⟩ <;> intro ss s hi ho as has <;>
    cases hi <;> cases ho <;> first
      | (obtain ⟨a, rfl, ha⟩ := typed1 has)
      | (obtain ⟨a, b, rfl, ha, hb⟩ := typed2 has)
      | (obtain rfl := typed0 has)
  · exact ⟨_, rfl⟩
  · exact ⟨_, rfl⟩
  · exact ⟨_, rfl⟩
  · exact written2_msg _
  · exact ⟨_, rfl⟩
  · exact memory_msg _
  · exact .inl (List.mem_cons_self)
  · obtain ⟨n, rfl⟩ := ha
    show dom .step (if (1, [n]) ∈ acts then .pt 1 [n] else .undef)
    by_cases hin : (1, [n]) ∈ acts
    · rw [if_pos hin]; exact .inl (List.mem_map.2 ⟨_, hin, rfl⟩)
    · rw [if_neg hin]; exact .inr rfl
  · exact ⟨_, rfl⟩
  · exact ⟨_, rfl⟩
  · exact ⟨_, rfl⟩
  · exact ⟨_, rfl⟩
  · rcases step_doms ha with rfl | rfl | rfl | rfl
    · exact .inr run.pred_first
    · exact .inl (by rw [show M.fn (.s .pred) [.pt 1 [0]] = .pt 0 [] from run.pred_succ 0 _ _ rfl rfl]; simp [acts, V.ofAct])
    · exact .inl (by rw [show M.fn (.s .pred) [.pt 1 [1]] = .pt 1 [0] from run.pred_succ 1 _ _ rfl rfl]; simp [acts, V.ofAct])
    · exact .inr run.pred_undef
  · exact cond_tt _
  · exact memory_msg _
  · exact cond_tt _
  · exact ⟨_, rfl⟩
  · exact ha
  · exact ha

theorem decls : ∀ d ∈ (file true false).declarations, declSem S M d := by
  rw [declarations]
  intro d hd
  rcases List.mem_append.1 hd with hd' | hd
  · clear hd
    revert d
    rw [List.forall_mem_cons, List.forall_mem_cons, List.forall_mem_cons, List.forall_mem_cons, List.forall_mem_cons, List.forall_mem_cons]
    refine ⟨⟨.msg 0, _, rfl⟩, ⟨.idx 0, _, rfl⟩, ⟨.undef, .inr rfl⟩, fun d => Iff.rfl, fun d => Iff.rfl, ?_, nofun⟩
    intro p hp
    obtain rfl := List.mem_singleton.1 hp
    have hidx : ∀ as, Typed M.dom [.index] as → ∃ n, as = [.idx n] := by
      intro as h
      obtain ⟨a, rfl, n, rfl⟩ := typed1 h
      exact ⟨n, rfl⟩
    constructor
    · intro c hc as has
      obtain rfl := List.mem_singleton.1 hc
      obtain ⟨n, rfl⟩ := hidx as has
      exact ⟨n, rfl⟩
    · intro c hc c' hc' as bs has hbs e
      obtain rfl := List.mem_singleton.1 hc
      obtain rfl := List.mem_singleton.1 hc'
      obtain ⟨n, rfl⟩ := hidx as has
      obtain ⟨m, rfl⟩ := hidx bs hbs
      have e : V.pt 99 [n] = V.pt 99 [m] := e
      cases e
      exact ⟨rfl, rfl⟩
    · rintro d ⟨n, rfl⟩
      exact ⟨_, List.mem_singleton_self _, [.idx n], ⟨⟨n, rfl⟩, trivial⟩, rfl⟩
    · intro c hc as has i p a hp ha
      obtain rfl := List.mem_singleton.1 hc
      obtain ⟨n, rfl⟩ := hidx as has
      match i, hp, ha with
      | 0, hp, ha => cases hp; cases ha; rfl
      | i + 1, hp, ha => cases ha
  · obtain ⟨f, hf, rfl⟩ := List.mem_map.1 hd
    exact typed_fn f hf

/-! ### The formulas are well formed -/

def boolHeadB : Fm GF → Bool
  | .var _ => false
  | .quant .. => true
  | .app f _ => match S.kind f with
    | .tru | .fls | .and | .or | .eq | .not | .imp => true
    | .fn | .evaluate | .vampSub | .ite => false

def arityB (n : Nat) : SKind → Bool
  | .tru | .fls => n == 0
  | .not => n == 1
  | .imp | .vampSub => n == 2
  | .ite => n == 3
  | .evaluate => n == 1
  | .fn | .eq | .and | .or => true

mutual
def okB : List Var → Fm GF → Bool
  | bd, .var v => bd.find? (fun w => w.id == v.id) == some v
  | bd, .quant _ vs b => (!vs.isEmpty || boolHeadB b) && okB (vs.reverse ++ bd) b
  | bd, .app f args => arityB args.length (S.kind f) && okBs bd args
def okBs : List Var → List (Fm GF) → Bool
  | _, [] => true
  | bd, a :: as => okB bd a && okBs bd as
end

theorem boolHeadB_sound {b : Fm GF} (h : boolHeadB b = true) : boolHead S b := by
  cases b with
  | var v => cases h
  | quant q vs b => trivial
  | app f args =>
    simp only [boolHeadB] at h
    simp only [boolHead]
    split <;> rename_i hk <;> rw [hk] at h <;> trivial

theorem arityB_sound {n : Nat} {k : SKind} (h : arityB n k = true) : arityOK true n k := by
  cases k <;> first
    | exact trivial
    | exact fun _ => eq_of_beq h
    | exact eq_of_beq h

mutual
theorem okB_sound : ∀ {bd : List Var} {f : Fm GF}, okB bd f = true → FmOK S true bd f
  | bd, .var v, h => eq_of_beq h
  | bd, .quant q vs b, h => by
    simp only [okB, Bool.and_eq_true, Bool.or_eq_true] at h
    refine ⟨fun hv => ?_, okB_sound h.2⟩
    rcases h.1 with h1 | h1
    · subst hv; cases h1
    · exact boolHeadB_sound h1
  | bd, .app f args, h => by
    simp only [okB, Bool.and_eq_true] at h
    exact ⟨arityB_sound h.1, okBs_sound h.2⟩
theorem okBs_sound : ∀ {bd : List Var} {l : List (Fm GF)}, okBs bd l = true → FmOKs S true bd l
  | _, [], _ => trivial
  | bd, a :: as, h => by
    simp only [okBs, Bool.and_eq_true] at h
    exact ⟨okB_sound h.1, okBs_sound h.2⟩
end

def axB : Ax GF → Bool
  | .comment s => !s.contains '\n'
  | .base f | .theory f | .ground _ f | .query f => okB [] f
  | .rewrite k vs pre post => (match k with
    | .bool => true
    | .other f => (S.kind f).isFn) && okB vs.reverse pre && okB vs.reverse post

theorem axB_sound {a : Ax GF} (h : axB a = true) : AxOK S true a := by
  cases a with
  | comment s =>
    show '\n' ∉ s
    simpa [axB] using h
  | base f => exact okB_sound h
  | theory f => exact okB_sound h
  | ground s f => exact okB_sound h
  | query f => exact okB_sound h
  | rewrite k vs pre post =>
    simp only [axB, Bool.and_eq_true] at h
    refine ⟨?_, okB_sound h.1.2, okB_sound h.2⟩
    cases k with
    | bool => trivial
    | other f => exact h.1.1

theorem fileOK : FileOK S true (file true false) where
  ax a ha := by
    have key : (file true false).assertions.all axB = true := by decide
    exact axB_sound (List.all_eq_true.1 key a ha)
  decl d hd := by
    rw [declarations] at hd ⊢
    revert d
    simp only [List.map, List.cons_append, List.nil_append, List.forall_mem_cons, List.not_mem_nil, false_implies, implies_true, and_true]
    refine ⟨trivial, trivial, trivial, trivial, trivial, ?_, ?_⟩
    · intro p hp c hc
      obtain rfl := List.mem_singleton.1 hp
      obtain rfl := List.mem_singleton.1 hc
      exact ⟨rfl, rfl, ⟨_, rfl, rfl⟩, by decide⟩
    · refine ⟨?_, ?_, ?_, ?_, ?_, ?_, ?_, ?_, ?_, ?_, ?_, ?_, ?_, ?_, ?_, ?_, ?_, ?_, ?_⟩ <;>
        refine ⟨rfl, ⟨_, rfl⟩, ⟨_, rfl⟩, fun _ h => ?_⟩ <;> first
          | (cases h; done)
          | exact ⟨.message, .bitstring, rfl, rfl, .inl (by simp)⟩
          | exact ⟨.condition, .bool, rfl, rfl, .inr (by simp)⟩

/-! ### The query -/

def sig : Sig GF
  | .s (.user 0) => some ([], .message)
  | .s (.user 1) => some ([.index], .condition)
  | .s (.user 2) => some ([.index], .message)
  | .s (.ta .tru) => some ([], .condition)
  | .s (.cell 0) => some ([.step], .message)
  | .s (.step 1) => some ([.index], .step)
  | .s .evalMsg => some ([.message], .bitstring)
  | .s .evalCond => some ([.condition], .bool)
  | _ => none

theorem userOK : UserOK (prob true false) M sig (fun _ => .index) where
  typing :=
    { out := by
        intro f args o h
        unfold sig at h
        split at h <;> cases h <;> rfl
      fn := by
        intro f args o h ds hds
        have hty : Typed M.dom args ds := by
          clear h
          induction hds with
          | nil => trivial
          | cons h1 _ ih => exact ⟨h1, ih⟩
        unfold sig at h
        split at h <;> cases h <;> exact typed_fn _ (by simp) _ _ rfl rfl ds hty
      base := by
        intro f args o ev h
        simp only [prob, K, E, ekind] at h
        split at h <;> cases h <;> rfl
      conn := by
        intro f args ev h
        simp only [prob, K, E, ekind] at h
        split at h <;> cases h <;> rfl
      eqTa := by
        intro f h
        simp only [prob, K, E, ekind] at h
        split at h <;> cases h
      notTa := by
        intro f h
        simp only [prob, K, E, ekind] at h
        split at h <;> cases h
      ev := by
        intro f h
        simp only [prob, K, E, ekind] at h
        split at h <;> cases h
        · exact ⟨_, _, rfl, rfl⟩
        · exact ⟨_, _, rfl, rfl⟩
      evs := by
        intro s h
        cases s <;> first
          | rfl
          | cases h }
  push := by
    intro φ hφ
    rcases List.mem_cons.1 hφ with rfl | hφ
    · refine ⟨?_, by decide⟩
      have hv : WS sig (upd (fun _ => .index) [i0]) (.var i0) .index := .var i0 rfl
      have hs : WS sig (upd (fun _ => .index) [i0]) (.app (.s (.step 1)) [.var i0]) .step :=
        .app (sorts := [.index]) rfl rfl (by
          intro p hp
          obtain rfl := List.mem_singleton.1 hp
          exact hv)
      refine .quant (.app (by simp [prob, K, E, ekind]) ?_)
      simp only [List.forall_mem_cons, List.not_mem_nil, false_implies, implies_true, and_true]
      refine ⟨.app (by simp [prob, K, E, ekind]) ?_, .app (by simp [prob, K, E, ekind]) ?_⟩
      · simp only [List.forall_mem_cons, List.not_mem_nil, false_implies, implies_true, and_true]
        refine .app (by simp [prob, K, E, ekind]) ?_
        simp only [List.forall_mem_cons, List.not_mem_nil, false_implies, implies_true, and_true]
        exact .var _
      · simp only [List.forall_mem_cons, List.not_mem_nil, false_implies, implies_true, and_true]
        refine ⟨.ev rfl (s := .message) rfl (.stop rfl (by intro q b fr c h; cases h) (.app (sorts := [.step]) rfl rfl ?_)),
          .ev rfl (s := .message) rfl (.fn (sorts := [.index]) rfl rfl rfl ?_)⟩
        · intro p hp
          obtain rfl := List.mem_singleton.1 hp
          exact hs
        · intro p hp
          obtain rfl := List.mem_singleton.1 hp
          exact .var i0 rfl rfl
    · obtain rfl := List.mem_singleton.1 hφ
      refine ⟨.app (by simp [prob, K, E, ekind]) ?_, by decide⟩
      simp only [List.forall_mem_cons, List.not_mem_nil, false_implies, implies_true, and_true]
      exact .app (by simp [prob, K, E, ekind]) nofun
  hold := by
    intro φ hφ ρ hρ
    obtain rfl := List.mem_singleton.1 hφ
    show V.truth ((M.comap GF.s).fn .happens [.pt 0 []])
    rw [run.happens]
    exact List.mem_cons_self

/-! ### The theorems -/

theorem assOK : ∀ a ∈ (prob true false).crypto, AssOK (prob true false) M points a := by
  simp only [prob, List.forall_mem_cons, List.not_mem_nil, false_implies, implies_true, and_true]
  exact ⟨cells, unfolds⟩

/-- `C71_sound_partial`: the assertions of the file are true in this execution. -/
example : ∃ as q, (file true false).assertions = as ++ [.query q] ∧
    (∀ a ∈ as, ∀ ρ, Resp M (fun _ => .index) ρ → AxTrue M ρ a) ∧
    ∀ ρ, Resp M (fun _ => .index) ρ → Fm.eval M ρ q = Fm.eval M ρ query :=
  C71_sound_partial (file_eq true false) execution assOK userOK

def opts : SmtM.Opts := ⟨true, true, true, true, true⟩

/-- `C71_proved_partial`: when the solver says that the file is unsatisfiable, the query is true in this execution. -/
example : ∃ t es, output S opts (file true false) = some t ∧ read t = some es ∧
    ((∀ (D : Type) (I : Interp D), ¬ ∀ e ∈ es, cmdSem I e) →
      ∀ ρ, Resp M (fun _ => .index) ρ → M.truth (Fm.eval M ρ query)) :=
  C71_proved_partial (file_eq true false) execution assOK userOK names opts fileOK std (noop true) decls

end GEx
end Gen
end CV
