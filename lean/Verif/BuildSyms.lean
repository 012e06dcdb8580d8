import Verif.GenSyms3
import Verif.BuildText
set_option linter.unusedSimpArgs false
set_option linter.unusedVariables false
set_option linter.unusedSectionVars false
/-
C92, C94: the symbols of the file that is written for an accepted file come from it.
-/
namespace CV
namespace Bld
open Dep Ev Cry Prs Gsy

/-- The names that symbols can have. -/
def FName (l : List Decl) (n : String) : Prop := n ∈ builtinSy.map (·.1) ∨ n ∈ objNames l ++ extraInit l

instance (l : List Decl) (n : String) : Decidable (FName l n) := by unfold FName; infer_instance

/-- The declarations of the symbols with such names. -/
def fsg (sh : Bool) (l : List Decl) : Sg := fun n => if FName l n then (fileEnv (env0 sh) l).sg n else none

theorem builtin_syms : ∀ p ∈ builtinFunctions, ∀ n ∈ (match (p.2.info p.1).sym with | .sym n => [n] | _ => []), n ∈ builtinSy.map (·.1) := by
  decide +kernel

theorem new_sym {D : DEnv} {l : List Decl} {p : String × Cache} (h : p ∈ newFunctions D l) : (p.2.info p.1).sym = .sym p.1 := by
  simp only [newFunctions, List.mem_append, List.mem_filterMap, List.mem_map] at h
  rcases h with ⟨d, _, hd⟩ | ⟨n, _, rfl⟩
  · cases d <;> simp only [mkCache, Option.some.injEq, reduceCtorEq] at hd
    all_goals (subst hd; rfl)
  · rfl

/-- The symbols of the environment have such names. -/
theorem env_sym {sh : Bool} {l : List Decl} {p : String × Cache} (h : p ∈ (fileEnv (env0 sh) l).functions) {n : String}
    (e : (p.2.info p.1).sym = .sym n) : FName l n := by
  rw [fileEnv_functions] at h
  rcases List.mem_append.1 h with h | h
  · exact .inl (builtin_syms p h n (by rw [e]; exact List.mem_singleton.2 rfl))
  · rw [new_sym h] at e
    cases e
    exact .inr (by rw [← newFunctions_names (env0 sh)]; exact List.mem_map.2 ⟨_, h, rfl⟩)

theorem declOk_fsg (sh : Bool) (l : List Decl) : DeclOk (fileEnv (env0 sh) l).toEnv (fsg sh l) := by
  intro f i a o hf hi
  obtain ⟨h1, h2⟩ := declOk_file sh l f i a o hf hi
  refine ⟨?_, h2⟩
  simp only [DEnv.toEnv, Option.map_eq_some_iff] at hf
  obtain ⟨c, hc, rfl⟩ := hf
  have hn : ∀ n, (c.info f).sym = .sym n → FName l n := fun n e => env_sym (p := (f, c)) (lookup_map_mem hc) e
  generalize (c.info f).sym = x at h1 hn ⊢
  cases h1 with
  | sym h => exact .sym (by unfold fsg; rw [if_pos (hn _ rfl)]; exact h)
  | taQuant h => cases h
  | taFind h => cases h
  | _ => constructor

theorem step_fname {D : DEnv} {l : List Decl} {p : String × List (String × Srt) × StepDecl} (h : p ∈ declaredSteps D l) : FName l p.1 := by
  right
  rw [List.mem_append]
  simp only [declaredSteps, List.mem_append, List.mem_map] at h
  rcases h with ⟨d, hd, rfl⟩ | ⟨n, hn, rfl⟩
  · left
    obtain ⟨x, hx, e⟩ := List.mem_filterMap.1 hd
    cases x <;> simp only [Option.some.injEq, reduceCtorEq] at e
    subst e
    exact List.mem_filterMap.2 ⟨_, hx, rfl⟩
  · exact .inr hn

theorem fname_env {sh : Bool} {l : List Decl} {n : String} (h : FName l n) : n ∈ (fileEnv (env0 sh) l).functions.map Prod.fst := by
  rw [fileEnv_functions, List.map_append, List.mem_append]
  rcases h with h | h
  · have : ∀ m ∈ builtinSy.map (·.1), m ∈ builtinFunctions.map Prod.fst := by decide +kernel
    exact .inl (this n h)
  · exact .inr (by rw [show (newFunctions (env0 sh) l).map Prod.fst = _ from newFunctions_names (env0 sh) l]; exact h)

section
variable {o : Opt} {sh ig : Bool} {l : List Decl} {P : LProblem}

theorem fromFile_up {tbl : List TAQ} {C : Prs.Ctx} {φ : Fm PF} {s : Srt} (h : HasSrt (fsg sh l) tbl C φ s) : Ok (FromFile P l) (up φ) := by
  unfold up
  induction h with
  | var _ => exact ok_var _
  | @app C f args ss s hf hlen _ ih =>
    rw [Fm.mapF, ok_app, mapFs_eq]
    refine ⟨?_, fun a ha => ?_⟩
    · cases hf with
      | @sym n _ _ h =>
        unfold fsg at h
        split at h
        · next k => exact k
        · cases h
      | _ => trivial
    · obtain ⟨b, hb, rfl⟩ := List.mem_map.1 ha
      obtain ⟨i, hi, rfl⟩ := List.mem_iff_getElem.1 hb
      refine ih (args[i], ss[i]'(hlen ▸ hi)) ?_
      rw [List.mem_iff_getElem]
      exact ⟨i, by simp [hi, hlen ▸ hi], by simp⟩
  | quant _ ih => exact ih

mutual
theorem ok_mapF_inv {F G : Type} {S : G → Prop} {ι : F → G} : ∀ {φ : Fm F}, Ok S (φ.mapF ι) → Ok (fun s => S (ι s)) φ
  | .var v, _ => ok_var v
  | .app f args, h => by
    rw [Fm.mapF, ok_app] at h
    rw [ok_app]
    exact ⟨h.1, ok_mapFs_inv h.2⟩
  | .quant q vs b, h => ok_mapF_inv (φ := b) h
theorem ok_mapFs_inv {F G : Type} {S : G → Prop} {ι : F → G} : ∀ {l : List (Fm F)}, (∀ a ∈ Fm.mapFs ι l, Ok S a) → ∀ a ∈ l, Ok (fun s => S (ι s)) a
  | [], _ => by simp
  | t :: l, h => by
    intro a ha
    have h0 : Ok (fun s => S (ι s)) t := ok_mapF_inv (h _ (by rw [Fm.mapFs]; exact List.mem_cons_self))
    have h1 := ok_mapFs_inv (l := l) fun a ha => h a (by rw [Fm.mapFs]; exact List.mem_cons_of_mem _ ha)
    rcases List.mem_cons.1 ha with rfl | ha
    · exact h0
    · exact h1 a ha
end

theorem fromFile_down {tbl tbl' : List TAQ} {C C' : Prs.Ctx} {φ : Fm PF} {s s' : Srt} (h : HasSrt P.env.sg tbl C φ s) (h' : HasSrt (fsg sh l) tbl' C' φ s') :
    Ok (fun x => FromFile P l (ofSym P x)) (down P φ) := by
  apply ok_mapF_inv
  rw [up_down h]
  exact fromFile_up h'

/-- A problem whose formulas are well sorted over the names of the file. -/
structure Fine (sh ig : Bool) (l : List Decl) (P : LProblem) : Prop where
  loaded : Loaded (env0 sh) l ig P
  srt : ProbSrt P.env.sg P
  fine : ProbSrt (fsg sh l) P

theorem fine {ord : List (String × Cache) → List (String × Cache)} {fuel : Nat} (hord : ∀ l, (ord l).Perm l) (hw : FileWs (env0 sh) l)
    (hc : FileClean (env0 sh) l) (h : load ord fuel ig (env0 sh) l = .ok P) : Fine sh ig l P where
  loaded := load_loaded hord (env0_base sh) h
  srt := (good hord hw hc h).srt
  fine := prob_srt ord hord ig sh fuel l P hw hc _ (declOk_fsg sh l)
    (fun hok p hp => by unfold fsg; rw [if_pos (step_fname hp)]; exact declared_sg hok hp) h

variable (H : Fine sh ig l P)
include H

theorem Fine.step {s : LStep} (hs : s ∈ P.steps) : FName l s.name := by
  obtain ⟨zs, h1, ⟨ds, h2, h3⟩, -⟩ := H.loaded.steps
  have : s.name ∈ zs.map (·.1.name) := by
    obtain ⟨z, hz, rfl⟩ := List.mem_map.1 (h1.mem_iff.1 hs)
    exact List.mem_map.2 ⟨z, hz, rfl⟩
  rw [names_elab h3] at this
  obtain ⟨p, hp, e⟩ := List.mem_map.1 this
  rw [← e]
  exact step_fname (h2.mem_iff.1 hp)

theorem Fine.cell {c : LCell} (hc : c ∈ P.cells) : FName l c.name := by
  obtain ⟨zs, -, -, cs, h4, h5⟩ := H.loaded.steps
  rw [h5] at hc
  obtain ⟨d, hd, rfl⟩ := List.mem_map.1 hc
  obtain ⟨x, hx, e⟩ := List.mem_filterMap.1 (h4.mem_iff.1 hd)
  cases x <;> simp only [Option.some.injEq, reduceCtorEq] at e
  subst e
  exact .inr (List.mem_append_left _ (List.mem_filterMap.2 ⟨_, hx, rfl⟩))

theorem Fine.known {n : String} (h : FName l n) : n ∈ P.env.functions.map Prod.fst := by
  rw [H.loaded.env]; exact fname_env h

theorem Fine.ev {n : String} (h : isBase P n = true) : n = "empty" ∨ n ∈ objNames l := by
  unfold isBase at h
  split at h
  swap
  · cases h
  next i e =>
  have hm := lookup_map_mem e
  rw [H.loaded.env, fileEnv_functions] at hm
  rcases List.mem_append.1 hm with hm | hm
  · have key : ∀ p ∈ builtinFunctions, (match p.2 with | .func i => i.sym == .sym p.1 && !i.isName && p.1 ∉ macros && p.1 != "ta$iff" | _ => false) = true → p.1 = "empty" := by
      decide +kernel
    exact .inl (key _ hm h)
  · right
    simp only [newFunctions, List.mem_append, List.mem_filterMap, List.mem_map] at hm
    rcases hm with ⟨d, hd, e⟩ | ⟨m, _, e⟩
    · cases d <;> simp only [mkCache, Option.some.injEq, reduceCtorEq, Prod.mk.injEq, and_false] at e
      obtain ⟨rfl, -⟩ := e
      exact List.mem_filterMap.2 ⟨_, hd, rfl⟩
    · cases e

theorem Fine.content {c : LCell} (hc : c ∈ P.cells) {a : LAssign} (ha : a ∈ c.assigns) : Ok (FromFile P l) (up a.content) := by
  obtain ⟨s, _, _, k⟩ := H.fine.cells c hc a ha
  exact fromFile_up k.content

/-! ### The environment -/

theorem Fine.lang : LOk (FromFile P l) (lang P) where
  eq := trivial
  and := trivial
  or := trivial
  imp := trivial
  tru := trivial
  lt := .inl (by decide)
  kind := by
    intro f hf b fr cs e c hc
    simp only [Bld.lang, Bld.kind] at e
    split at e
    · cases e
    · next k =>
      split at e
      · next q bs fr' b' hq =>
        cases e
        rw [List.mem_singleton.1 hc]
        exact fromFile_up (H.fine.tbl _ (List.mem_of_getElem? hq))
      · next bs fr' c' l' r' hq =>
        cases e
        obtain ⟨k1, k2, k3⟩ := H.fine.tbl _ (List.mem_of_getElem? hq)
        simp only [List.mem_cons, List.not_mem_nil, or_false] at hc
        rcases hc with rfl | rfl | rfl
        · exact fromFile_up k1
        · exact fromFile_up k2
        · exact fromFile_up k3
      · cases e
    · repeat' split at e
      all_goals cases e
    · cases e

theorem Fine.kindOk (f : BF) (hf : FromFile P l f) : KindOk (FromFile P l) (ekind P f) := by
  unfold ekind
  split
  all_goals try trivial
  · next k =>
    split
    · next q bs fr b hq => exact fromFile_up (H.fine.tbl _ (List.mem_of_getElem? hq))
    · next bs fr c l r hq =>
      obtain ⟨k1, k2, k3⟩ := H.fine.tbl _ (List.mem_of_getElem? hq)
      exact ⟨fromFile_up k1, fromFile_up k2, fromFile_up k3⟩
    · trivial
  · next n =>
    split
    · split <;> trivial
    · split
      · next hb =>
        split
        · exact H.ev hb
        · trivial
      · trivial

theorem Fine.functions : ∀ f ∈ (cfg o P).functions, FromFile P l f := by
  intro f hf
  simp only [cfg, List.mem_append, List.mem_map] at hf
  rcases hf with ⟨p, hp, rfl⟩ | ⟨k, _, rfl⟩
  · rw [H.loaded.env] at hp
    cases e : (p.2.info p.1).sym with
    | sym n => exact env_sym hp e
    | _ => trivial
  · trivial

theorem Fine.sorts {s : Srt} (hs : s ∈ builtinSorts.map Prod.snd) : s ∈ P.env.sorts.map Prod.snd := by
  rw [H.loaded.env, fileEnv_sorts]
  obtain ⟨p, hp, rfl⟩ := List.mem_map.1 hs
  exact List.mem_map.2 ⟨p, by rw [withTypes_sorts]; exact List.mem_append_left _ hp, rfl⟩

theorem Fine.cfg : EOk (FromFile P l) (cfg o P) where
  L := H.lang
  not := trivial
  ite := trivial
  evs := by
    intro p hp
    simp only [Bld.cfg, List.mem_cons, List.not_mem_nil, or_false] at hp
    rcases hp with rfl | rfl <;> trivial
  kind := H.kindOk
  functions := H.functions
  rewrite := by
    intro s hs s' e hne
    have e : evalSort s = some s' := e
    unfold evalSort at e
    split at e
    · cases e; exact H.sorts (by decide)
    · cases e; exact absurd rfl hne
    · cases e
  skolem := by
    intro f hf g hg
    unfold Gen.skolems at hg
    split at hg
    · obtain ⟨i, _, rfl⟩ := List.mem_map.1 hg
      trivial
    · cases hg

theorem anc_cells {F : Type} {g : Graph F} {fuel : Nat} {r : MacroRef F} {a : Ancestors F} (h : g.ancestors fuel r = .ok a) :
    ∀ c ∈ a.cells, c ∈ g.cells.map Prod.fst := by
  unfold Graph.ancestors at h
  split at h
  · cases h
  · split at h
    · cases h
    · cases h
    · cases h
      intro c hc
      obtain ⟨p, _, e⟩ := List.mem_filterMap.1 hc
      obtain ⟨q, hq, rfl⟩ := Option.map_eq_some_iff.1 e
      exact List.mem_map.2 ⟨q, List.mem_of_getElem? hq, rfl⟩

theorem preCells_anc {F : Type} {g : Graph F} {fuel : Nat} : ∀ {cs : List (GCell F)} {r : List (GCell F × Ancestors F)}, g.preCells fuel cs = some r →
    ∀ p ∈ r, ∀ c ∈ p.2.cells, c ∈ g.cells.map Prod.fst
  | [], r, h, p, hp => by cases h; cases hp
  | c :: cs, r, h, p, hp => by
    unfold Graph.preCells at h
    split at h
    · next h1 h2 =>
      cases h
      rcases List.mem_cons.1 hp with rfl | hp
      · exact anc_cells H h1
      · exact preCells_anc h2 p hp
    · cases h

theorem graph_cells {G : PreGraph BF} (h : graph o P = some G) {r : MacroRef BF} {a : Ancestors BF} (ha : G.ancestors r = some a) :
    ∀ c ∈ a.cells, c ∈ P.cells.map (gcell P) := by
  unfold graph at h
  obtain ⟨g, h1, h2⟩ := Option.bind_eq_some_iff.1 h
  obtain ⟨x, h1, rfl⟩ := Option.bind_eq_some_iff.1 h1
  unfold Graph.new at h1
  obtain ⟨y, _, h1⟩ := Option.map_eq_some_iff.1 h1
  obtain ⟨es, _, rfl⟩ := Option.map_eq_some_iff.1 h1
  have hc : ∀ c ∈ (Graph.ofEdges (P.cells.map (gcell P)) es).cells.map Prod.fst, c ∈ P.cells.map (gcell P) := by
    intro c hc
    obtain ⟨p, hp, rfl⟩ := List.mem_map.1 hc
    simp only [Graph.ofEdges] at hp
    obtain ⟨q, hq, rfl⟩ := List.mem_map.1 hp
    exact (List.mem_zipIdx' (x := q.1) (i := q.2) hq).2 ▸ List.getElem_mem _
  unfold Graph.preprocess at h2
  split at h2
  · next h3 h4 h5 =>
    cases h2
    intro c hm
    refine hc c ?_
    cases r with
    | exec => cases ha; exact anc_cells H h5 c hm
    | input => cases ha; exact anc_cells H h4 c hm
    | cell d =>
      obtain ⟨p, hp, rfl⟩ := Option.map_eq_some_iff.1 ha
      exact preCells_anc H h3 p (List.mem_reverse.1 (List.mem_of_find?_eq_some hp)) c hm
  · cases h2

theorem Fine.gcell {c : GCell BF} (hc : c ∈ P.cells.map (gcell P)) : ∀ a ∈ c.assigns, FromFile P l a.step.fn ∧ Ok (FromFile P l) a.content := by
  obtain ⟨d, hd, rfl⟩ := List.mem_map.1 hc
  intro a ha
  obtain ⟨x, hx, e⟩ := List.mem_filterMap.1 ha
  obtain ⟨s, hs, rfl⟩ := Option.map_eq_some_iff.1 e
  exact ⟨H.step (List.mem_of_find?_eq_some hs), H.content hd hx⟩

theorem Fine.pbl {B : Gen.Prob BF} (hB : toProb o P = some B) : KOk (FromFile P l) B.K := by
  obtain ⟨G, hG, rfl⟩ := Option.map_eq_some_iff.1 hB
  refine ⟨H.cfg, trivial, ?_, fun c hc a ha => (H.gcell hc a ha).2, fun r a e c hc => H.gcell (graph_cells H hG e c hc), ?_⟩
  · intro s hs
    obtain ⟨t, ht, rfl⟩ := List.mem_map.1 hs
    obtain ⟨k1, k2⟩ := H.fine.steps t ht
    exact ⟨H.step ht, fromFile_up k2, fromFile_up k1⟩
  · intro t ht
    obtain ⟨φ, hφ, rfl⟩ := List.mem_map.1 ht
    simp only [topTerms, List.mem_append, List.mem_singleton, List.mem_flatMap, List.mem_map, List.mem_cons, List.not_mem_nil, or_false] at hφ
    rcases hφ with (((hφ | rfl) | hφ) | ⟨s, hs, rfl | rfl⟩) | ⟨c, hc, a, ha, rfl⟩
    · exact fromFile_up (H.fine.assertions φ hφ)
    · exact fromFile_up H.fine.query
    · exact fromFile_up (H.fine.lemmas φ hφ)
    · exact fromFile_up (H.fine.steps s hs).condition
    · exact fromFile_up (H.fine.steps s hs).message
    · exact H.content hc ha

/-! ### The protocol -/

theorem Fine.nameAt {n : String} (h : FName l n) : nameAt P (num P n) = n := (num_spec (H.known h)).2

theorem Fine.pstep {s : LStep} (hs : s ∈ P.steps) : FromFile P l (ofSym P (.step (num P s.name))) := by
  show FName l (Bld.nameAt P (num P s.name))
  rw [H.nameAt (H.step hs)]
  exact H.step hs

theorem Fine.prot : PrOk (fun s => FromFile P l (ofSym P s)) (protocol P) where
  bool := fun c => by cases c <;> trivial
  happens := .inl (by decide)
  lt := .inl (by decide)
  leq := .inl (by decide)
  gt := .inl (by decide)
  pred := .inl (by decide)
  cond := .inl (by decide)
  msg := .inl (by decide)
  exec := .inl (by decide)
  evalMsg := trivial
  evalCond := trivial
  steps := by
    intro s hs
    obtain ⟨t, ht, rfl⟩ := List.mem_map.1 hs
    exact ⟨H.pstep ht, fromFile_down (H.srt.steps t ht).condition (H.fine.steps t ht).condition,
      fromFile_down (H.srt.steps t ht).message (H.fine.steps t ht).message⟩
  cells := by
    intro c hc
    obtain ⟨d, hd, rfl⟩ := List.mem_map.1 hc
    refine ⟨?_, fun a ha => ?_⟩
    · show FName l (Bld.nameAt P (num P d.name))
      rw [H.nameAt (H.cell hd)]
      exact H.cell hd
    · obtain ⟨x, hx, e⟩ := List.mem_filterMap.1 ha
      obtain ⟨s, hs, rfl⟩ := Option.map_eq_some_iff.1 e
      obtain ⟨s1, _, _, k1⟩ := H.srt.cells d hd x hx
      obtain ⟨s2, _, _, k2⟩ := H.fine.cells d hd x hx
      refine ⟨H.pstep (List.mem_of_find?_eq_some hs), fun t ht => ?_, fromFile_down k1.content k2.content⟩
      obtain ⟨φ, hφ, rfl⟩ := List.mem_map.1 ht
      obtain ⟨i, hi, rfl⟩ := List.mem_iff_getElem.1 hφ
      have hi' : i < d.args.length := k1.arity ▸ hi
      have hm : (x.args[i], d.args[i]) ∈ x.args.zip d.args := by
        rw [List.mem_iff_getElem]
        exact ⟨i, by simp [hi, hi'], by simp⟩
      exact fromFile_down (k1.args _ hm) (k2.args _ hm)
  orders := by
    intro q hq
    obtain ⟨x, hx, rfl⟩ := List.mem_map.1 hq
    have k1 := H.srt.orders x hx
    have k2 := H.fine.orders x hx
    refine ⟨fromFile_down k1.guard k2.guard, ?_⟩
    have hf := fromFile_down (P := P) k1.fst k2.fst
    have hs := fromFile_down (P := P) k1.snd k2.snd
    simp only [porder]
    split <;> rename_i e <;> split at e <;> cases e <;> exact ⟨hf, hs⟩

/-! ### The assumptions -/

theorem verifySign_lookup {D : DEnv} {f : String} {args : List Srt} {out : Srt} (h : verifySign D f args out = .ok ()) :
    ∃ c, D.functions.lookup f = some c := by
  cases e : D.functions.lookup f with
  | some c => exact ⟨c, rfl⟩
  | none => simp [verifySign, e, Out.ofOption, Out.bind] at h

def okU : Out Unit → Bool
  | .ok _ => true
  | _ => false

/-- The signatures asked for. -/
def cryptoSigs : List (List Srt × Srt) :=
  [([.message, .message], .message), ([.message, .message, .message], .condition), ([.message], .message),
    ([.message, .message, .message], .message), ([], .message)]

theorem Fine.verified {f : String} {args : List Srt} {out : Srt} (hs : (args, out) ∈ cryptoSigs) (h : verifySign P.env f args out = .ok ()) : FName l f := by
  obtain ⟨c, hc⟩ := verifySign_lookup H h
  have hm := lookup_map_mem hc
  rw [H.loaded.env, fileEnv_functions] at hm
  rcases List.mem_append.1 hm with hm | hm
  · left
    have key : ∀ p ∈ builtinFunctions, ∀ q ∈ cryptoSigs, okU (verifySign (env0 true) p.1 q.1 q.2) = true → p.1 ∈ builtinSy.map (·.1) := by decide +kernel
    refine key (f, c) hm _ hs ?_
    have e : (env0 true).functions.lookup f = P.env.functions.lookup f := by
      have hl : ∀ {A B : List (String × Cache)} {c' : Cache}, A.lookup f = some c' → (A ++ B).lookup f = some c' := by
        intro A B c' h
        rw [List.lookup_append, h]; rfl
      obtain ⟨c', hc'⟩ := Option.isSome_iff_exists.1 ((lookup_isSome builtinFunctions f).2 (List.mem_map.2 ⟨_, hm, rfl⟩))
      have e1 : P.env.functions.lookup f = some c' := by
        rw [H.loaded.env, fileEnv_functions]
        exact hl hc'
      rw [e1]
      exact hc'
    have e2 : verifySign (env0 true) f args out = verifySign P.env f args out := by
      unfold verifySign
      rw [e]
    show okU (verifySign (env0 true) f args out) = true
    rw [e2, h]; rfl
  · exact .inr (by rw [← newFunctions_names (env0 sh)]; exact List.mem_map.2 ⟨_, hm, rfl⟩)

theorem Fine.subSym (k : Nat) : SubOk (FromFile P l) (subSym o P k) := by
  intro s f e
  unfold Bld.subSym at e
  split at e
  · cases e; trivial
  · obtain ⟨t, _, e'⟩ := Option.bind_eq_some_iff.1 e
    split at e'
    · next h => cases e'; exact h
    · cases e'

theorem Fine.crypto {y : Crypto} (hy : y ∈ P.crypto) (k : Nat) : AssOk (FromFile P l) (toAss o P k y) := by
  obtain ⟨c, _, h⟩ := forall₂_right H.loaded.crypto y hy
  have hu : ∀ {fs opts : List String} {y : Crypto}, parseUfCma P.env fs opts = .ok y → AssOk (FromFile P l) (toAss o P k y) := by
    intro fs opts y h
    unfold parseUfCma at h
    split at h
    · simp only [bind_ok] at h
      obtain ⟨_, h1, _, h2, h3⟩ := h
      cases h3
      exact ⟨⟨H.verified (by decide) h1, H.verified (by decide) h2, H.subSym _, H.subSym _⟩, trivial⟩
    · cases h
  unfold parseCrypto at h
  repeat' split at h
  · cases h; exact H.subSym _
  · cases h; trivial
  · unfold parseEufCma at h
    split at h
    · exact hu h
    · simp only [bind_ok] at h
      obtain ⟨_, h1, _, h2, _, h3, h4⟩ := h
      cases h4
      exact ⟨⟨H.verified (by decide) h1, H.verified (by decide) h2, H.verified (by decide) h3, H.subSym _, H.subSym _⟩, trivial⟩
    · cases h
  · exact hu h
  · unfold parseIntCtxt at h
    split at h
    all_goals first
      | cases h
      | (simp only [bind_ok] at h
         obtain ⟨_, h1, _, h2, _, h3, h4⟩ := h
         cases h4
         exact ⟨H.verified (by decide) h1, H.verified (by decide) h2, H.verified (by decide) h3, H.subSym _, H.subSym _, H.subSym _⟩)
  · unfold parseUnfolding at h
    split at h
    · cases h; trivial
    · cases h
  · cases h

theorem Fine.prob {B : Gen.Prob BF} (hB : toProb o P = some B) : BOk (FromFile P l) B := by
  have hK := H.pbl hB
  obtain ⟨G, hG, rfl⟩ := Option.map_eq_some_iff.1 hB
  refine ⟨hK, H.prot, fun f hf i => H.functions f hf, ?_, ?_, fromFile_up H.fine.query⟩
  · intro a ha
    obtain ⟨c, hc, rfl⟩ := List.mem_map.1 ha
    exact H.crypto (List.fst_mem_of_mem_zipIdx hc) _
  · intro φ hφ
    obtain ⟨ψ, hψ, rfl⟩ := List.mem_map.1 hφ
    exact fromFile_up (H.fine.assertions ψ hψ)

end

/-- **C94.** Every symbol in the file that is written for an accepted, well-sorted, clean file comes from the file: it is declared there (or is the added `init`),
or builtin, or made from such a symbol, a sort of the file or one of its assumptions; in particular the evaluated symbols are those of `empty` and of functions of
the file, and the sorts of predicates are sorts of the file. -/
theorem C94_symbols_partial (ord : List (String × Cache) → List (String × Cache)) (hord : ∀ l, (ord l).Perm l) (o : Opt) (ig sh : Bool)
    (fuel : Nat) (l : List Prs.Decl) (P : LProblem) (B : Gen.Prob BF) (hw : FileWs (env0 sh) l) (hc : FileClean (env0 sh) l)
    (h : load ord fuel ig (env0 sh) l = .ok P) (hB : toProb o P = some B) (g : SmtM.GenFile BF) (hg : B.file = some g) :
    ∀ f ∈ g.syms, FromFile P l f :=
  file_syms ((fine hord hw hc h).prob hB) hg

end Bld
end CV
