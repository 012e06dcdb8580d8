import Verif.BuildDeclOk
set_option linter.unusedSimpArgs false
set_option linter.unusedVariables false
set_option linter.unusedSectionVars false
/-
C94: every symbol that is used in the file that is written for an accepted file is declared in it, or known to the solver.
-/
namespace CV
namespace Bld
open Dep Ev Cry Prs Gsy

section
variable {o : Opt} {sh ig : Bool} {l : List Decl} {P : LProblem} {S : BF → Prop}

/-- The symbols of the parser that can occur in the formulas of a problem. -/
def InProb (P : LProblem) (l : List Decl) : PF → Prop
  | .sym n => FName l n
  | .taq k => k < P.tbl.length
  | _ => True

/-- The symbols made for an assumption are in the set. -/
def AssMade (S : BF → Prop) : Gen.Ass BF → Prop
  | .ufCma U sp => SubOk S U.mainSym ∧ SubOk S U.keySym ∧ S sp
  | .eufCma U sp => SubOk S U.mainSym ∧ SubOk S U.keySym ∧ S sp
  | .intCtxt X => SubOk S X.mainSym ∧ SubOk S X.keySym ∧ SubOk S X.randSym
  | .nonce sym => SubOk S sym
  | _ => True

/-- A set with all the symbols of the problem and those made for it. -/
structure Adm (o : Opt) (l : List Decl) (P : LProblem) (S : BF → Prop) : Prop where
  f : ∀ x, InProb P l x → S (.f x)
  ev : ∀ f a s e, ekind P f = .base a s e → S e
  rw : S (.rw .bitstring)
  sk : ∀ f ∈ (Bld.cfg o P).functions, ∀ g ∈ Gen.skolems (Bld.cfg o P) f, S g
  ass : ∀ c ∈ P.crypto.zipIdx, AssMade S (toAss o P c.2 c.1)

theorem used_up (A : Adm o l P S) {C : Prs.Ctx} {φ : Fm PF} {s : Srt} (h : HasSrt (fsg sh l) P.tbl C φ s) : Ok S (up φ) := by
  unfold up
  generalize ht : P.tbl = tbl at h
  revert ht
  induction h with
  | var _ => exact fun _ => ok_var _
  | @app C f args ss s hf hlen _ ih =>
    intro ht
    rw [Fm.mapF, ok_app, mapFs_eq]
    refine ⟨?_, fun a ha => ?_⟩
    · refine A.f _ ?_
      cases hf with
      | @sym n _ _ h =>
        unfold fsg at h
        split at h
        · next k => exact k
        · cases h
      | taQuant h => subst ht; exact (List.getElem?_eq_some_iff.1 h).1
      | taFind h => subst ht; exact (List.getElem?_eq_some_iff.1 h).1
      | _ => trivial
    · obtain ⟨b, hb, rfl⟩ := List.mem_map.1 ha
      obtain ⟨i, hi, rfl⟩ := List.mem_iff_getElem.1 hb
      refine ih (args[i], ss[i]'(hlen ▸ hi)) ?_ ht
      rw [List.mem_iff_getElem]
      exact ⟨i, by simp [hi, hlen ▸ hi], by simp⟩
  | quant _ ih => exact fun ht => ih ht

theorem used_down (A : Adm o l P S) {C C' : Prs.Ctx} {φ : Fm PF} {s s' : Srt} (h : HasSrt P.env.sg P.tbl C φ s) (h' : HasSrt (fsg sh l) P.tbl C' φ s') :
    Ok (fun x => S (ofSym P x)) (down P φ) := by
  apply ok_mapF_inv
  rw [up_down h]
  exact used_up A h'


variable (H : Fine sh ig l P) (A : Adm o l P S)
include H A

theorem used_content {c : LCell} (hc : c ∈ P.cells) {a : LAssign} (ha : a ∈ c.assigns) : Ok S (up a.content) := by
  obtain ⟨s, _, _, k⟩ := H.fine.cells c hc a ha
  exact used_up A k.content

/-! ### The environment -/

theorem used_lang : LOk S (lang P) where
  eq := A.f _ trivial
  and := A.f _ trivial
  or := A.f _ trivial
  imp := A.f _ trivial
  tru := A.f _ trivial
  lt := A.f _ (.inl (by decide))
  kind := by
    intro f hf b fr cs e c hc
    simp only [Bld.lang, Bld.kind] at e
    split at e
    · cases e
    · next k =>
      split at e
      · next q bs fr' b' hq =>
        cases e
        rw [List.mem_singleton.1 hc]
        exact used_up A (H.fine.tbl _ (List.mem_of_getElem? hq))
      · next bs fr' c' l' r' hq =>
        cases e
        obtain ⟨k1, k2, k3⟩ := H.fine.tbl _ (List.mem_of_getElem? hq)
        simp only [List.mem_cons, List.not_mem_nil, or_false] at hc
        rcases hc with rfl | rfl | rfl
        · exact used_up A k1
        · exact used_up A k2
        · exact used_up A k3
      · cases e
    · repeat' split at e
      all_goals cases e
    · cases e

theorem used_kindOk (f : BF) (hf : S f) : KindOk S (ekind P f) := by
  cases e : ekind P f with
  | base a s ev => exact A.ev f a s ev e
  | conn a ev =>
    have : ∃ x, ev = .f x ∧ InProb P l x := by
      unfold ekind at e
      split at e
      all_goals first
        | (cases e; exact ⟨_, rfl, trivial⟩)
        | (repeat' split at e
           all_goals first | (cases e; done) | (cases e; exact ⟨_, rfl, trivial⟩))
    obtain ⟨x, rfl, hx⟩ := this
    exact A.f x hx
  | taq q bs fr c =>
    obtain ⟨b, hq, rfl⟩ : ∃ b, TAQ.quant q bs fr b ∈ P.tbl ∧ c = up b := by
      unfold ekind at e
      split at e
      all_goals first
        | cases e
        | (repeat' split at e
           all_goals first | (cases e; done) | (cases e; exact ⟨_, List.mem_of_getElem? ‹_›, rfl⟩))
    exact used_up A (H.fine.tbl _ hq)
  | fst bs fr c x y =>
    obtain ⟨c', x', y', hq, rfl, rfl, rfl⟩ : ∃ c' x' y', TAQ.find bs fr c' x' y' ∈ P.tbl ∧ c = up c' ∧ x = up x' ∧ y = up y' := by
      unfold ekind at e
      split at e
      all_goals first
        | cases e
        | (repeat' split at e
           all_goals first | (cases e; done) | (cases e; exact ⟨_, _, _, List.mem_of_getElem? ‹_›, rfl, rfl, rfl⟩))
    obtain ⟨k1, k2, k3⟩ := H.fine.tbl _ hq
    exact ⟨used_up A k1, used_up A k2, used_up A k3⟩
  | _ => trivial

theorem used_functions : ∀ f ∈ (cfg o P).functions, S f := by
  intro f hf
  simp only [cfg, List.mem_append, List.mem_map] at hf
  rcases hf with ⟨p, hp, rfl⟩ | ⟨k, hk, rfl⟩
  · rw [H.loaded.env] at hp
    refine A.f _ ?_
    cases e : (p.2.info p.1).sym with
    | sym n => exact env_sym hp e
    | taq k =>
      have := (Dcl.envSyms_not H.loaded (.taq k) (List.mem_map.2 ⟨p, by rw [H.loaded.env]; exact hp, e⟩)).1 k
      exact absurd rfl this
    | _ => trivial
  · exact A.f _ (List.mem_range.1 hk)

theorem used_cfg : EOk S (cfg o P) where
  L := used_lang H A
  not := A.f _ trivial
  ite := A.f _ trivial
  evs := by
    intro p hp
    simp only [Bld.cfg, List.mem_cons, List.not_mem_nil, or_false] at hp
    rcases hp with rfl | rfl <;> exact A.f _ trivial
  kind := used_kindOk H A
  functions := used_functions H A
  rewrite := by
    intro s hs s' e hne
    have e : evalSort s = some s' := e
    unfold evalSort at e
    split at e
    · cases e; exact A.rw
    · cases e; exact absurd rfl hne
    · cases e
  skolem := A.sk

theorem used_gcell {c : GCell BF} (hc : c ∈ P.cells.map (gcell P)) : ∀ a ∈ c.assigns, S a.step.fn ∧ Ok S a.content := by
  obtain ⟨d, hd, rfl⟩ := List.mem_map.1 hc
  intro a ha
  obtain ⟨x, hx, e⟩ := List.mem_filterMap.1 ha
  obtain ⟨s, hs, rfl⟩ := Option.map_eq_some_iff.1 e
  exact ⟨A.f _ (H.step (List.mem_of_find?_eq_some hs)), (used_content H A) hd hx⟩

theorem used_pbl {B : Gen.Prob BF} (hB : toProb o P = some B) : KOk S B.K := by
  obtain ⟨G, hG, rfl⟩ := Option.map_eq_some_iff.1 hB
  refine ⟨(used_cfg H A), A.f _ trivial, ?_, fun c hc a ha => ((used_gcell H A) hc a ha).2, fun r a e c hc => (used_gcell H A) (graph_cells H hG e c hc), ?_⟩
  · intro s hs
    obtain ⟨t, ht, rfl⟩ := List.mem_map.1 hs
    obtain ⟨k1, k2⟩ := H.fine.steps t ht
    exact ⟨A.f _ (H.step ht), used_up A k2, used_up A k1⟩
  · intro t ht
    obtain ⟨φ, hφ, rfl⟩ := List.mem_map.1 ht
    simp only [topTerms, List.mem_append, List.mem_singleton, List.mem_flatMap, List.mem_map, List.mem_cons, List.not_mem_nil, or_false] at hφ
    rcases hφ with (((hφ | rfl) | hφ) | ⟨s, hs, rfl | rfl⟩) | ⟨c, hc, a, ha, rfl⟩
    · exact used_up A (H.fine.assertions φ hφ)
    · exact used_up A H.fine.query
    · exact used_up A (H.fine.lemmas φ hφ)
    · exact used_up A (H.fine.steps s hs).condition
    · exact used_up A (H.fine.steps s hs).message
    · exact (used_content H A) hc ha

/-! ### The protocol -/

theorem used_pstep {s : LStep} (hs : s ∈ P.steps) : S (ofSym P (.step (num P s.name))) := by
  refine A.f _ ?_
  show FName l (Bld.nameAt P (num P s.name))
  rw [H.nameAt (H.step hs)]
  exact H.step hs

theorem used_prot : PrOk (fun s => S (ofSym P s)) (protocol P) where
  bool := fun c => by cases c <;> exact A.f _ trivial
  happens := A.f _ (.inl (by decide))
  lt := A.f _ (.inl (by decide))
  leq := A.f _ (.inl (by decide))
  gt := A.f _ (.inl (by decide))
  pred := A.f _ (.inl (by decide))
  cond := A.f _ (.inl (by decide))
  msg := A.f _ (.inl (by decide))
  exec := A.f _ (.inl (by decide))
  evalMsg := A.f _ trivial
  evalCond := A.f _ trivial
  steps := by
    intro s hs
    obtain ⟨t, ht, rfl⟩ := List.mem_map.1 hs
    exact ⟨(used_pstep H A) ht, used_down A (H.srt.steps t ht).condition (H.fine.steps t ht).condition,
      used_down A (H.srt.steps t ht).message (H.fine.steps t ht).message⟩
  cells := by
    intro c hc
    obtain ⟨d, hd, rfl⟩ := List.mem_map.1 hc
    refine ⟨?_, fun a ha => ?_⟩
    · refine A.f _ ?_
      show FName l (Bld.nameAt P (num P d.name))
      rw [H.nameAt (H.cell hd)]
      exact H.cell hd
    · obtain ⟨x, hx, e⟩ := List.mem_filterMap.1 ha
      obtain ⟨s, hs, rfl⟩ := Option.map_eq_some_iff.1 e
      obtain ⟨s1, _, _, k1⟩ := H.srt.cells d hd x hx
      obtain ⟨s2, _, _, k2⟩ := H.fine.cells d hd x hx
      refine ⟨(used_pstep H A) (List.mem_of_find?_eq_some hs), fun t ht => ?_, used_down A k1.content k2.content⟩
      obtain ⟨φ, hφ, rfl⟩ := List.mem_map.1 ht
      obtain ⟨i, hi, rfl⟩ := List.mem_iff_getElem.1 hφ
      have hi' : i < d.args.length := k1.arity ▸ hi
      have hm : (x.args[i], d.args[i]) ∈ x.args.zip d.args := by
        rw [List.mem_iff_getElem]
        exact ⟨i, by simp [hi, hi'], by simp⟩
      exact used_down A (k1.args _ hm) (k2.args _ hm)
  orders := by
    intro q hq
    obtain ⟨x, hx, rfl⟩ := List.mem_map.1 hq
    have k1 := H.srt.orders x hx
    have k2 := H.fine.orders x hx
    refine ⟨used_down A k1.guard k2.guard, ?_⟩
    have hf := used_down A (P := P) k1.fst k2.fst
    have hs := used_down A (P := P) k1.snd k2.snd
    simp only [porder]
    split <;> rename_i e <;> split at e <;> cases e <;> exact ⟨hf, hs⟩

/-! ### The assumptions -/

theorem used_crypto {y : Crypto} {k : Nat} (hc : (y, k) ∈ P.crypto.zipIdx) : AssOk S (toAss o P k y) := by
  have hm := A.ass _ hc
  obtain ⟨c, _, h⟩ := forall₂_right H.loaded.crypto y (List.fst_mem_of_mem_zipIdx hc)
  have hu : ∀ {fs opts : List String} {y : Crypto}, AssMade S (toAss o P k y) → parseUfCma P.env fs opts = .ok y → AssOk S (toAss o P k y) := by
    intro fs opts y hm h
    unfold parseUfCma at h
    split at h
    · simp only [bind_ok] at h
      obtain ⟨_, h1, _, h2, h3⟩ := h
      cases h3
      obtain ⟨m1, m2, m3⟩ := hm
      exact ⟨⟨A.f _ (H.verified (by decide) h1), A.f _ (H.verified (by decide) h2), m1, m2⟩, m3⟩
    · cases h
  unfold parseCrypto at h
  repeat' split at h
  · cases h; exact hm
  · cases h; trivial
  · unfold parseEufCma at h
    split at h
    · exact hu hm h
    · simp only [bind_ok] at h
      obtain ⟨_, h1, _, h2, _, h3, h4⟩ := h
      cases h4
      obtain ⟨m1, m2, m3⟩ := hm
      exact ⟨⟨A.f _ (H.verified (by decide) h1), A.f _ (H.verified (by decide) h2), A.f _ (H.verified (by decide) h3), m1, m2⟩, m3⟩
    · cases h
  · exact hu hm h
  · unfold parseIntCtxt at h
    split at h
    all_goals first
      | cases h
      | (simp only [bind_ok] at h
         obtain ⟨_, h1, _, h2, _, h3, h4⟩ := h
         cases h4
         obtain ⟨m1, m2, m3⟩ := hm
         exact ⟨A.f _ (H.verified (by decide) h1), A.f _ (H.verified (by decide) h2), A.f _ (H.verified (by decide) h3), m1, m2, m3⟩)
  · unfold parseUnfolding at h
    split at h
    · cases h; trivial
    · cases h
  · cases h

theorem used_prob {B : Gen.Prob BF} (hB : toProb o P = some B) : BOk S { B with dest := fun _ _ => .f .tru } := by
  have hK := used_pbl H A hB
  obtain ⟨G, hG, rfl⟩ := Option.map_eq_some_iff.1 hB
  refine ⟨hK, used_prot H A, fun f hf i => A.f _ trivial, ?_, ?_, used_up A H.fine.query⟩
  · intro a ha
    obtain ⟨c, hc, rfl⟩ := List.mem_map.1 ha
    exact used_crypto H A hc
  · intro φ hφ
    obtain ⟨ψ, hψ, rfl⟩ := List.mem_map.1 hφ
    exact used_up A (H.fine.assertions ψ hψ)

/-- All the symbols of the formulas of the file are in the set. -/
theorem used_file {B : Gen.Prob BF} (hB : toProb o P = some B) {g : SmtM.GenFile BF} (hg : B.file = some g) : ∀ a ∈ g.assertions, AxOk S a := by
  have hP := used_prob H A hB
  unfold Gen.Prob.file at hg
  split at hg
  swap
  · cases hg
  next a d h1 h2 =>
  cases hg
  exact axioms_ok hP h1

end

section
variable {o : Opt} {sh ig : Bool} {l : List Decl} {P : LProblem} {B : Gen.Prob BF}

theorem pred_mem (hB : toProb o P = some B) {k : Nat} {so : Bool} (hso : so = true) : SubOk (· ∈ B.predSyms so (subSym o P k)) (subSym o P k) := by
  obtain ⟨G, hG, rfl⟩ := Option.map_eq_some_iff.1 hB
  intro s f e
  subst hso
  simp only [Gen.Prob.predSyms, if_true, List.mem_filterMap]
  by_cases hv : o.vampire = true
  · refine ⟨none, by simp [hv], ?_⟩
    simpa [subSym, hv] using e
  · have hv : o.vampire = false := by simpa using hv
    refine ⟨s, ?_, e⟩
    simp only [subSym, hv, Bool.false_eq_true, if_false] at e ⊢
    obtain ⟨t, rfl, e'⟩ := Option.bind_eq_some_iff.1 e
    split at e'
    · next h =>
      have h' : t ∈ (cfg o P).sorts := h
      simpa [hv] using h'
    · cases e'

/-- The evaluated functions and the equality of bitstrings, which are left out without bitstring functions. -/
def BitSym (f : BF) : Prop := (∃ n, f = .ev (.sym n)) ∨ f = .rw .bitstring

/-- The symbols that are declared, those the solver knows, and those that are left out. -/
def DeclaredIn (o : Opt) (B : Gen.Prob BF) (f : BF) : Prop := isBuiltin f = true ∨ f ∈ B.symbols ∨ o.noBitstring = true ∧ BitSym f

theorem known_f (hL : Loaded (env0 sh) l ig P) (hB : toProb o P = some B) {x : PF} (hx : InProb P l x) : DeclaredIn o B (.f x) := by
  obtain ⟨m1, m2⟩ := Dcl.symbols_mem hL hB
  have hlist : ∀ n c, (n, c) ∈ builtinFunctions → n ∉ Dcl.solverNames → DeclaredIn o B (.f (c.info n).sym) := by
    intro n c hm hn
    refine .inr (.inl ((m1 _).2 (.inl ⟨n, c, ?_, hn, rfl⟩)))
    rw [hL.env, fileEnv_functions]
    exact List.mem_append_left _ hm
  have hplain : ∀ x ∈ [PF.taTrue, .taFalse, .taAnd, .taOr, .taNot, .taImp, .taEq, .taIte, .nameToMsg, .input], DeclaredIn o B (.f x) := by
    have key : ∀ x ∈ [PF.taTrue, .taFalse, .taAnd, .taOr, .taNot, .taImp, .taEq, .taIte, .nameToMsg, .input],
        ∃ p ∈ builtinFunctions, p.1 ∉ Dcl.solverNames ∧ (p.2.info p.1).sym = x := by decide +kernel
    intro x hx
    obtain ⟨p, hp, hn, e⟩ := key x hx
    exact e ▸ hlist p.1 p.2 hp hn
  cases x with
  | sym n =>
    rcases (show FName l n from hx) with h | h
    · have key : ∀ m ∈ builtinSy.map (·.1), ∃ p ∈ builtinFunctions, p.1 ∉ Dcl.solverNames ∧ (p.2.info p.1).sym = .sym m := by decide +kernel
      obtain ⟨p, hp, hn, e⟩ := key n h
      exact e ▸ hlist p.1 p.2 hp hn
    · rw [← newFunctions_names (env0 sh)] at h
      obtain ⟨⟨n', c⟩, hp, rfl⟩ := List.mem_map.1 h
      have hm : (n', c) ∈ P.env.functions := by
        rw [hL.env, fileEnv_functions]
        exact List.mem_append_right _ hp
      have e : (c.info n').sym = .sym n' := new_sym hp
      refine .inr (.inl ((m1 _).2 (.inl ⟨n', c, hm, (Dcl.not_builtin_env hL hm).1 (by rw [e]; rfl), e.symm⟩)))
  | taq k => exact .inr (.inl ((m1 _).2 (.inr (.inl ⟨k, hx, rfl⟩))))
  | evalMsg => exact .inr (.inl ((m1 _).2 (.inr (.inr (.inl rfl)))))
  | evalCond => exact .inr (.inl ((m1 _).2 (.inr (.inr (.inr rfl)))))
  | _ => first | exact .inl rfl | exact hplain _ (by decide)

theorem known_sk (hB : toProb o P = some B) {f g : BF} (hf : f ∈ (Bld.cfg o P).functions) (hg : g ∈ Gen.skolems (Bld.cfg o P) f) : DeclaredIn o B g := by
  obtain ⟨G, hG, e⟩ := Option.map_eq_some_iff.1 hB
  have hE : B.K.E = cfg o P := by rw [← e]
  refine .inr (.inl ?_)
  unfold Gen.Prob.symbols
  rw [hE]
  exact List.mem_append_left _ (List.mem_append_right _ (List.mem_flatMap.2 ⟨f, hf, hg⟩))

theorem known_adm (hL : Loaded (env0 sh) l ig P) (hB : toProb o P = some B) (hs : o.symbolic = true)
    (hd : o.define = true) : Adm o l P (DeclaredIn o B) := by
  obtain ⟨m1, m2⟩ := Dcl.symbols_mem hL hB
  have hev := Dcl.evalFun_iff (o := o) hL
  have hP : ∀ {k so}, so = true → SubOk (· ∈ B.predSyms so (subSym o P k)) (subSym o P k) := fun h => pred_mem hB h
  obtain ⟨G, hG, e⟩ := Option.map_eq_some_iff.1 hB
  have hE : B.K.E = cfg o P := by rw [← e]
  have hbi : B.builtin = isBuiltin := by rw [← e]
  have hde : B.define = true := by rw [← e]; exact hd
  have hc : B.crypto = P.crypto.zipIdx.map fun c => toAss o P c.2 c.1 := by rw [← e]
  have hso : ∀ s, sound o s = true := fun s => by simp [sound, hs]
  have hgen : (B.K.E.symbolic && B.define) = true := by rw [hE, hde]; simp [cfg, hs]
  have hbits : o.noBitstring = false → (B.K.E.symbolic && !B.K.E.noBitstring) = true := fun hb => by rw [hE]; simp [cfg, hs, hb]
  clear e
  refine ⟨?_, ?_, ?_, ?_, ?_⟩
  · exact fun x hx => known_f hL hB hx
  · intro f a s e he
    obtain ⟨n, rfl, rfl⟩ := Dcl.ekind_base he
    cases hb : o.noBitstring
    swap
    · exact .inr (.inr ⟨hb, .inl ⟨n, rfl⟩⟩)
    refine .inr (.inl ((m2 _).2 ⟨hs, hb, (hev _).1 ⟨.f (.sym n), ?_, by simp only [Gen.evalFun, show (cfg o P).kind (.f (.sym n)) = _ from he]⟩⟩))
    have hba : isBase P n = true := by
      simp only [ekind] at he
      split at he
      · split at he <;> cases he
      · split at he
        · assumption
        · cases he
    unfold isBase at hba
    split at hba
    · next i hi =>
      simp only [Bool.and_eq_true, beq_iff_eq] at hba
      rw [Dcl.cfg_functions]
      refine List.mem_append_left _ (List.mem_map.2 ⟨_, List.mem_map.2 ⟨_, lookup_map_mem hi, rfl⟩, ?_⟩)
      exact congrArg BF.f hba.1.1.1
    · cases hba
  · cases hb : o.noBitstring
    swap
    · exact .inr (.inr ⟨hb, .inr rfl⟩)
    refine .inr (.inl ?_)
    unfold Gen.Prob.symbols
    rw [if_pos (hbits hb), hE, Dcl.evalSorts_eq hL]
    simp [cfg]
  · exact fun f hf g hg => known_sk hB hf hg
  · intro c hm
    have hin : ∀ x ∈ B.assSyms (toAss o P c.2 c.1), DeclaredIn o B x := by
      intro x hx
      refine .inr (.inl (List.mem_append_right _ (List.mem_flatMap.2 ⟨_, ?_, hx⟩)))
      rw [hc]
      exact List.mem_map.2 ⟨c, hm, rfl⟩
    obtain ⟨y, k⟩ := c
    cases y <;> simp only [toAss, Gen.Prob.assSyms, hgen, if_true, List.mem_append, List.mem_singleton] at hin ⊢
    · exact fun s f e => hin f (hP rfl s f e)
    · trivial
    · exact ⟨fun s f e => hin f (.inl (.inr (hP (hso _) s f e))), fun s f e => hin f (.inl (.inl (hP (hso _) s f e))), hin _ (.inr rfl)⟩
    · exact ⟨fun s f e => hin f (.inl (.inr (hP (hso _) s f e))), fun s f e => hin f (.inl (.inl (hP (hso _) s f e))), hin _ (.inr rfl)⟩
    · exact ⟨fun s f e => hin f (.inl (.inl (hP (hso _) s f e))), fun s f e => hin f (.inl (.inr (hP (hso _) s f e))), fun s f e => hin f (.inr (hP (hso _) s f e))⟩
    · trivial

/-- The symbols that are made for evaluation and for assumptions. -/
def MadeSym (f : BF) : Prop := (∃ n, f = .ev (.sym n)) ∨ f = .rw .bitstring ∨ (∃ k s, f = .sub k s) ∨ ∃ k, f = .split k

theorem known_any (hL : Loaded (env0 sh) l ig P) (hB : toProb o P = some B) : Adm o l P (fun f => DeclaredIn o B f ∨ MadeSym f) := by
  have hsub : ∀ k, SubOk (fun f => DeclaredIn o B f ∨ MadeSym f) (subSym o P k) := by
    intro k s f e
    refine .inr (.inr (.inr (.inl ?_)))
    unfold subSym at e
    split at e
    · cases e; exact ⟨_, _, rfl⟩
    · obtain ⟨t, rfl, e'⟩ := Option.bind_eq_some_iff.1 e
      split at e'
      · cases e'; exact ⟨_, _, rfl⟩
      · cases e'
  refine ⟨fun x hx => .inl (known_f hL hB hx), ?_, .inr (.inr (.inl rfl)), fun f hf g hg => .inl (known_sk hB hf hg), ?_⟩
  · intro f a s e he
    obtain ⟨n, rfl, rfl⟩ := Dcl.ekind_base he
    exact .inr (.inl ⟨n, rfl⟩)
  · rintro ⟨y, k⟩ hm
    have hsp : ∀ k, DeclaredIn o B (.split k) ∨ MadeSym (.split k) := fun k => .inr (.inr (.inr (.inr ⟨k, rfl⟩)))
    cases y <;> simp only [toAss]
    · exact hsub _
    · trivial
    · exact ⟨hsub _, hsub _, hsp _⟩
    · exact ⟨hsub _, hsub _, hsp _⟩
    · exact ⟨hsub _, hsub _, hsub _⟩
    · trivial

end

/-- **C94.** Whatever the options, every symbol that is used in a formula of the file that is written for an accepted, well-sorted, clean file is declared in the
file, or is a connective of the solver, or is made for evaluation or for an assumption. Missing: which of the latter are declared; see
`C94_used_symbolic_partial`, `C71_evaluated_counterexample` and `C94_subterm_counterexample`. -/
theorem C94_used_partial (ord : List (String × Cache) → List (String × Cache)) (hord : ∀ l, (ord l).Perm l) (o : Opt) (ig sh : Bool)
    (fuel : Nat) (l : List Prs.Decl) (P : LProblem) (B : Gen.Prob BF) (hw : FileWs (env0 sh) l) (hc : FileClean (env0 sh) l)
    (h : load ord fuel ig (env0 sh) l = .ok P) (hB : toProb o P = some B) (g : SmtM.GenFile BF) (hg : B.file = some g) :
    ∀ a ∈ g.assertions, ∀ f ∈ SmtM.axSyms a, isBuiltin f = true ∨ f ∈ g.declarations.flatMap Gen.syms ∨
      (∃ n, f = .ev (.sym n)) ∨ f = .rw .bitstring ∨ (∃ k s, f = .sub k s) ∨ ∃ k, f = .split k := by
  have hL := load_loaded hord (env0_base sh) h
  have H := fine hord hw hc h
  intro a ha f hf
  rcases used_file H (known_any hL hB) hB hg a ha f hf with (h | h | ⟨_, h | h⟩) | h
  · exact .inl h
  · exact .inr (.inl (((Gen.C71_declared_once hg (Dcl.symbols_nodup hL hB)).2 f).2 (.inl h)))
  · exact .inr (.inr (.inl h))
  · exact .inr (.inr (.inr (.inl h)))
  · exact .inr (.inr h)

/-- **C94.** In the symbolic realm, with subterm predicates, every symbol that is used in a formula of the file that is written for an accepted, well-sorted,
clean file is declared in the file, or is a connective of the solver; without bitstring functions the only others are the evaluated functions and the equality of
bitstrings. Missing: the other options. In the evaluated realm evaluated functions are not declared either (`C71_evaluated_counterexample`). -/
theorem C94_used_symbolic_partial (ord : List (String × Cache) → List (String × Cache)) (hord : ∀ l, (ord l).Perm l) (o : Opt) (ig sh : Bool)
    (fuel : Nat) (l : List Prs.Decl) (P : LProblem) (B : Gen.Prob BF) (hw : FileWs (env0 sh) l) (hc : FileClean (env0 sh) l)
    (h : load ord fuel ig (env0 sh) l = .ok P) (hB : toProb o P = some B) (g : SmtM.GenFile BF) (hg : B.file = some g)
    (hs : o.symbolic = true) (hd : o.define = true) :
    ∀ a ∈ g.assertions, ∀ f ∈ SmtM.axSyms a, isBuiltin f = true ∨ f ∈ g.declarations.flatMap Gen.syms ∨
      o.noBitstring = true ∧ ((∃ n, f = .ev (.sym n)) ∨ f = .rw .bitstring) := by
  have hL := load_loaded hord (env0_base sh) h
  have H := fine hord hw hc h
  intro a ha f hf
  rcases used_file H (known_adm hL hB hs hd) hB hg a ha f hf with h | h | h
  · exact .inl h
  · exact .inr (.inl (((Gen.C71_declared_once hg (Dcl.symbols_nodup hL hB)).2 f).2 (.inl h)))
  · exact .inr (.inr h)

/-- **C94.** In the symbolic realm, with bitstring functions and subterm predicates, every symbol that is used in a formula of the file that is written for an
accepted, well-sorted, clean file is declared in the file, or is a connective of the solver. Missing: the other options. In the evaluated realm and without
bitstring functions it is false (`C71_evaluated_counterexample`), and so it is without definitions of subterms (`C94_subterm_counterexample`). -/
theorem C94_used_declared_partial (ord : List (String × Cache) → List (String × Cache)) (hord : ∀ l, (ord l).Perm l) (o : Opt) (ig sh : Bool)
    (fuel : Nat) (l : List Prs.Decl) (P : LProblem) (B : Gen.Prob BF) (hw : FileWs (env0 sh) l) (hc : FileClean (env0 sh) l)
    (h : load ord fuel ig (env0 sh) l = .ok P) (hB : toProb o P = some B) (g : SmtM.GenFile BF) (hg : B.file = some g)
    (hs : o.symbolic = true) (hb : o.noBitstring = false) (hd : o.define = true) :
    ∀ a ∈ g.assertions, ∀ f ∈ SmtM.axSyms a, isBuiltin f = true ∨ f ∈ g.declarations.flatMap Gen.syms := by
  intro a ha f hf
  rcases C94_used_symbolic_partial ord hord o ig sh fuel l P B hw hc h hB g hg hs hd a ha f hf with h | h | h
  · exact .inl h
  · exact .inr h
  · rw [hb] at h; cases h.1

/-! ### Without definitions of subterms -/

namespace UsedEx

/-- `query forall (s: Message, m: Message) {verify(s, m, k)}` with an unforgeable `mac`. -/
def file : List Prs.Decl := [
  .func "k" [] "Name",
  .func "mac" ["Message", "Message"] "Message",
  .func "verify" ["Message", "Message", "Message"] "Condition",
  .crypto ⟨"uf-cma", ["mac", "verify"], []⟩,
  .query (.quant .all [("s", "Message"), ("m", "Message")] (.app "verify" [.cvar "s", .cvar "m", .app "k" []]))]

/-- The symbolic realm with bitstring functions, without definitions of subterms. -/
def opt : Opt := ⟨true, false, false, false, false, true, 100⟩

/-- Is a predicate used that is not declared. -/
def badB (g : SmtM.GenFile BF) : Bool :=
  g.assertions.any fun a => (SmtM.axSyms a).any fun f => !isBuiltin f && !(g.declarations.flatMap Gen.syms).contains f

def checkB : Out LProblem → Bool
  | .ok P => ((toProb opt P).bind fun B => B.file).any badB
  | _ => false

theorem checked : checkB (load id 10 false (env0 true) file) = true := by decide +kernel

/-- The declarations. -/
def FE : DEnv := fileEnv (env0 true) file

theorem verify_ws : Ws FE.toEnv .ev [("s", .message), ("m", .message)] [] (.app "verify" [.cvar "s", .cvar "m", .app "k" []]) .condition :=
  Ws.app (i := ⟨.sym "verify", .fixed [.message, .message, .message] .condition, false⟩) (a := [.message, .message, .message]) (o := .condition) rfl rfl rfl
    (.cons (.var (s := .message) (by simp) (by decide)) rfl (.cons (.var (s := .message) (by simp) (by decide)) rfl
      (.cons (Ws.app (i := ⟨.sym "k", .fixed [] .name, true⟩) (a := []) (o := .name) rfl rfl rfl .nil) rfl .nil)))

theorem file_ws : FileWs (env0 true) file where
  ok := by
    have h := checked
    cases hP : load id 10 false (env0 true) file with
    | ok P =>
      simp only [load] at hP
      obtain ⟨D1, h1, hP⟩ := bind_ok.1 hP
      obtain ⟨Fq, h2, hP⟩ := bind_ok.1 hP
      exact ((C24_accepted_iff _ _ Fq.1 Fq.2).1 (bind_ok.2 ⟨D1, h1, h2⟩)).1
    | _ => rw [hP] at h; cases h
  texts t ht := by
    simp only [file, List.mem_cons, List.not_mem_nil, reduceCtorEq, or_false, false_or, Decl.assertion.injEq, Decl.lem.injEq, Decl.query.injEq] at ht
    subst ht
    refine ⟨.bool, .quant (Δ := [("s", .message), ("m", .message)]) ⟨.cons ⟨rfl, by with_unfolding_all rfl⟩ (.cons ⟨rfl, by with_unfolding_all rfl⟩ .nil),
      by simp [names], ?_⟩ verify_ws rfl, rfl⟩
    intro x hx
    exact ⟨by simp, by simp, .inl rfl⟩
  steps d hd := by simp [file] at hd
  orders o ho := by simp [file] at ho
  crypto c hc := by
    simp only [file, List.mem_cons, List.not_mem_nil, reduceCtorEq, or_false, false_or, Decl.crypto.injEq] at hc
    subst hc
    exact ⟨.ufCma "mac" "verify" false, (C45_recognised_partial _ _ _).1 (by with_unfolding_all rfl)⟩

theorem file_clean : FileClean (env0 true) file where
  texts t ht := by
    simp only [file, List.mem_cons, List.not_mem_nil, reduceCtorEq, or_false, false_or, Decl.assertion.injEq, Decl.lem.injEq, Decl.query.injEq] at ht
    subst ht
    refine .quant (fun _ => ⟨by simp, by simp⟩) ?_
    exact .app (i := ⟨.sym "verify", .fixed [.message, .message, .message] .condition, false⟩) rfl rfl
      (by simp [RealmsOk, FSig.args, FSig.realm, realmOf, argRealm])
      (.cons (.cvarVar (by simp)) (.cons (.cvarVar (by simp)) (.cons (.app (i := ⟨.sym "k", .fixed [] .name, true⟩) rfl rfl
        (by simp [RealmsOk, FSig.args, FSig.realm, realmOf, argRealm]) .nil) .nil)))
  steps d hd := by simp [file] at hd
  orders o ho := by simp [file] at ho

/-- The same with definitions of subterms. -/
def opt1 : Opt := { opt with define := true }

/-- A subterm predicate is used in a formula. -/
def usesB : Out LProblem → Bool
  | .ok P => ((toProb opt1 P).bind fun B => B.file).any fun g =>
      g.assertions.any fun a => (SmtM.axSyms a).any fun f => match f with | .sub _ _ => true | _ => false
  | _ => false

theorem uses_checked : usesB (load id 10 false (env0 true) file) = true := by decide +kernel

/-- `C94_used_declared_partial` applies to the file with definitions of subterms: a subterm predicate is used in a formula, and it is declared. -/
example : ∃ P B g, load id 10 false (env0 true) file = .ok P ∧ toProb opt1 P = some B ∧ B.file = some g ∧
    ∃ a ∈ g.assertions, ∃ i s, BF.sub i s ∈ SmtM.axSyms a ∧ BF.sub i s ∈ g.declarations.flatMap Gen.syms := by
  have h := uses_checked
  cases e : load id 10 false (env0 true) file with
  | ok P =>
    rw [e] at h
    simp only [usesB] at h
    cases hB : toProb opt1 P with
    | none => rw [hB] at h; cases h
    | some B =>
    rw [hB, Option.bind_some] at h
    cases hg : B.file with
    | none => rw [hg] at h; cases h
    | some g =>
    rw [hg, Option.any_some] at h
    simp only [List.any_eq_true] at h
    obtain ⟨a, ha, f, hf, h1⟩ := h
    have := C94_used_declared_partial id (fun _ => List.Perm.refl _) opt1 false true 10 file P B file_ws file_clean e hB g hg rfl rfl rfl a ha f hf
    cases f with
    | sub i s => exact ⟨P, B, g, rfl, hB, hg, a, ha, i, s, hf, this.resolve_left (by simp [isBuiltin])⟩
    | _ => cases h1
  | _ => rw [e] at h; cases h

end UsedEx

/-- **C94.** Without definitions of subterms the claim is false of the code: the instances of an assumption that are looked for in a query about all messages use
the subterm predicate where they meet a variable, and it is not declared (`define_subterms`, which declares it, is not called; uf_cma.rs:128-146). The command
line always sets the option (`C44_global_partial`: `defineSubterm = true`), so this concerns callers of the library only. -/
theorem C94_subterm_counterexample : ∃ (o : Opt) (l : List Prs.Decl) (P : LProblem) (B : Gen.Prob BF) (g : SmtM.GenFile BF), o.symbolic = true ∧
    o.noBitstring = false ∧ FileWs (env0 true) l ∧ FileClean (env0 true) l ∧ load id 10 false (env0 true) l = .ok P ∧ toProb o P = some B ∧ B.file = some g ∧
    ∃ a ∈ g.assertions, ∃ f ∈ SmtM.axSyms a, isBuiltin f = false ∧ f ∉ g.declarations.flatMap Gen.syms := by
  have h := UsedEx.checked
  cases e : load id 10 false (env0 true) UsedEx.file with
  | ok P =>
    rw [e] at h
    simp only [UsedEx.checkB] at h
    cases hB : toProb UsedEx.opt P with
    | none => rw [hB] at h; cases h
    | some B =>
    rw [hB, Option.bind_some] at h
    cases hg : B.file with
    | none => rw [hg] at h; cases h
    | some g =>
    rw [hg, Option.any_some] at h
    simp only [UsedEx.badB, List.any_eq_true, Bool.and_eq_true, Bool.not_eq_true', List.contains_eq_mem, decide_eq_false_iff_not] at h
    obtain ⟨a, ha, f, hf, h1, h2⟩ := h
    exact ⟨UsedEx.opt, UsedEx.file, P, B, g, rfl, rfl, UsedEx.file_ws, UsedEx.file_clean, e, hB, hg, a, ha, f, hf, h1, h2⟩
  | _ => rw [e] at h; cases h

/-- `C94_used_partial` applies to this file without definitions of subterms: what is not declared is a symbol made for evaluation or for the assumption. -/
example : ∃ P B g, load id 10 false (env0 true) UsedEx.file = .ok P ∧ toProb UsedEx.opt P = some B ∧ B.file = some g ∧
    ∃ a ∈ g.assertions, ∃ f ∈ SmtM.axSyms a, MadeSym f ∧ f ∉ g.declarations.flatMap Gen.syms := by
  have h := UsedEx.checked
  cases e : load id 10 false (env0 true) UsedEx.file with
  | ok P =>
    rw [e] at h
    simp only [UsedEx.checkB] at h
    cases hB : toProb UsedEx.opt P with
    | none => rw [hB] at h; cases h
    | some B =>
    rw [hB, Option.bind_some] at h
    cases hg : B.file with
    | none => rw [hg] at h; cases h
    | some g =>
    rw [hg, Option.any_some] at h
    simp only [UsedEx.badB, List.any_eq_true, Bool.and_eq_true, Bool.not_eq_true', List.contains_eq_mem, decide_eq_false_iff_not] at h
    obtain ⟨a, ha, f, hf, h1, h2⟩ := h
    refine ⟨P, B, g, rfl, hB, hg, a, ha, f, hf, ?_, h2⟩
    rcases C94_used_partial id (fun _ => List.Perm.refl _) UsedEx.opt false true 10 UsedEx.file P B UsedEx.file_ws UsedEx.file_clean e hB g hg a ha f hf with h | h | h
    · rw [h1] at h; cases h
    · exact absurd h h2
    · exact h
  | _ => rw [e] at h; cases h

end Bld
end CV
