import Verif.BuildDeclsSyms
import Verif.BuildEx
set_option linter.unusedSimpArgs false
/-
Property C90, main part: the declarations of the file that is written for an accepted file.
-/
namespace CV
namespace Dcl
open Prs Bld

/-! ## Specification -/

/-- SPECIFICATION. The connectives the solver knows: they are not declared. -/
def solverNames : List String := ["and", "or", "not", "=>", "=", "ite", "true", "false"]

/-- SPECIFICATION. A function of the file of type `Bool` gives conditions. -/
def asCond : Srt → Srt
  | .bool => .condition
  | s => s

/-- SPECIFICATION. The values of messages are bitstrings, those of conditions Booleans; other sorts are their own values. -/
def bits : Srt → Srt
  | .message => .bitstring
  | .condition => .bool
  | s => s

/-- SPECIFICATION. The functions with an evaluated counterpart: `empty` and the functions of the file that are not names. -/
def HasBits (D : DEnv) (l : List Decl) (n : String) : Prop :=
  n = "empty" ∨ ∃ a out, Decl.func n a out ∈ l ∧ D.sorts.lookup out ≠ some .name

/-- SPECIFICATION. The file declares names. -/
def HasNames (D : DEnv) (l : List Decl) : Prop := ∃ n a out, Decl.func n a out ∈ l ∧ D.sorts.lookup out = some .name

section
variable {sh ig : Bool} {l : List Decl} {P : LProblem} {o : Opt} {B : Gen.Prob BF} {g : SmtM.GenFile BF}

theorem out_sort (hok : FileOk (env0 sh) l) {n a out} (hd : Decl.func n a out ∈ l) : ∃ s ∈ [Srt.bool, .condition, .message, .step, .name],
    (env0 sh).sorts.lookup out = some s ∧ (withTypes (env0 sh) (typeNames l)).sortD out = s := by
  obtain ⟨s, hs, hl⟩ := hok.outs n a out hd
  refine ⟨s, hs, hl, ?_⟩
  unfold DEnv.sortD
  rw [withTypes_lookup, hl]
  rfl

theorem lookup_func (hL : Loaded (env0 sh) l ig P) {n a out} (hd : Decl.func n a out ∈ l) : P.env.functions.lookup n =
    some (.func ⟨.sym n, .fixed (a.map fun s => asCond (P.env.sortD s)) (asCond (P.env.sortD out)), asCond (P.env.sortD out) == .name⟩) := by
  have e : ∀ s, asCond s = boolToCond s := fun s => by cases s <;> rfl
  rw [hL.env]
  refine lookup_new hL.ok (List.mem_append_left _ (List.mem_filterMap.2 ⟨_, hd, ?_⟩))
  simp only [mkCache, e, fileEnv_sortD]

theorem lookup_cell (hL : Loaded (env0 sh) l ig P) {n a out} (hd : Decl.cell n a out ∈ l) : P.env.functions.lookup n =
    some (.cell (a.map P.env.sortD)) := by
  rw [hL.env]
  exact lookup_new hL.ok (List.mem_append_left _ (List.mem_filterMap.2 ⟨_, hd, rfl⟩))

theorem lookup_step (hL : Loaded (env0 sh) l ig P) {d} (hd : Decl.step d ∈ l) : P.env.functions.lookup d.name =
    some (.step (d.params.map fun b => (b.1, P.env.sortD b.2)) d) := by
  rw [hL.env]
  exact lookup_new hL.ok (List.mem_append_left _ (List.mem_filterMap.2 ⟨_, hd, rfl⟩))

theorem lookup_builtin (hL : Loaded (env0 sh) l ig P) {n c} (h : (n, c) ∈ builtinFunctions) : P.env.functions.lookup n = some c := by
  rw [hL.env]
  refine lookup_mem (env_names_nodup hL.ok) ?_
  rw [fileEnv_functions]
  exact List.mem_append_left _ h

theorem new_name (hL : Loaded (env0 sh) l ig P) {n a out} (hd : Decl.func n a out ∈ l) : n ∉ builtinFunctions.map Prod.fst := fun h =>
  hL.ok.objs.2 n (List.mem_append_left _ (List.mem_filterMap.2 ⟨_, hd, rfl⟩)) (List.mem_append_left _ h)

/-- The functions that have an evaluated counterpart. -/
theorem evalFun_iff (hL : Loaded (env0 sh) l ig P) (x : PF) :
    (∃ f ∈ (cfg o P).functions, Gen.evalFun (cfg o P) f = some (.ev x)) ↔ ∃ n, x = .sym n ∧ HasBits (env0 sh) l n := by
  constructor
  · rintro ⟨f, hf, h⟩
    unfold Gen.evalFun at h
    split at h
    case h_2 => cases h
    rename_i h1
    cases h
    obtain ⟨n, rfl, e⟩ := ekind_base (P := P) h1
    cases e
    refine ⟨n, rfl, ?_⟩
    have hb : isBase P n = true := by
      by_contra hb
      have h1 : ekind P (.f (.sym n)) = _ := h1
      simp only [ekind, hb] at h1
      split at h1
      · split at h1 <;> cases h1
      · cases h1
    unfold isBase at hb
    cases e : P.env.functions.lookup n with
    | none => rw [e] at hb; cases hb
    | some c =>
      rw [e] at hb
      rw [hL.env] at e
      rcases lookup_env e with e | ⟨d, hd, e⟩ | e
      · left
        simp only [builtinFunctions, List.mem_cons, List.not_mem_nil, or_false, Prod.mk.injEq] at e
        rcases e with ⟨rfl, rfl⟩ | ⟨rfl, rfl⟩ | ⟨rfl, rfl⟩ | ⟨rfl, rfl⟩ | ⟨rfl, rfl⟩ | ⟨rfl, rfl⟩ | ⟨rfl, rfl⟩ | ⟨rfl, rfl⟩ | ⟨rfl, rfl⟩ | ⟨rfl, rfl⟩ |
          ⟨rfl, rfl⟩ | ⟨rfl, rfl⟩ | ⟨rfl, rfl⟩ | ⟨rfl, rfl⟩ | ⟨rfl, rfl⟩ | ⟨rfl, rfl⟩ | ⟨rfl, rfl⟩ | ⟨rfl, rfl⟩ | ⟨rfl, rfl⟩ | ⟨rfl, rfl⟩ | ⟨rfl, rfl⟩ |
          ⟨rfl, rfl⟩ | ⟨rfl, rfl⟩ | ⟨rfl, rfl⟩ | ⟨rfl, rfl⟩ | ⟨rfl, rfl⟩ | ⟨rfl, rfl⟩ | ⟨rfl, rfl⟩ <;>
        first | rfl | (exact absurd hb (by decide +kernel))
      · right
        cases d <;> simp only [mkCache, Option.some.injEq, Prod.mk.injEq, reduceCtorEq] at e <;> obtain ⟨rfl, rfl⟩ := e
        · rename_i n a out
          obtain ⟨s, hs, h1, h2⟩ := out_sort hL.ok hd
          refine ⟨a, out, hd, fun h => ?_⟩
          rw [h] at h1
          cases h1
          rw [h2] at hb
          simp [boolToCond] at hb
        · simp at hb
        · simp at hb
      · cases e
        simp at hb
  · rintro ⟨n, rfl, h⟩
    have key : ∀ i a out, P.env.functions.lookup n = some (.func i) → i = ⟨.sym n, .fixed a out, false⟩ → n ∉ macros → n ≠ "ta$iff" →
        ∃ f ∈ (cfg o P).functions, Gen.evalFun (cfg o P) f = some (.ev (.sym n)) := by
      rintro i a out hl rfl hm ht
      refine ⟨.f (.sym n), ?_, ?_⟩
      · rw [cfg_functions]
        refine List.mem_append_left _ (List.mem_map.2 ⟨_, List.mem_map.2 ⟨_, lookup_map_mem hl, rfl⟩, rfl⟩)
      · have hb : isBase P n = true := by simp [isBase, hl, hm, ht]
        have hs : sigOf P (.sym n) = some (a, out) := by simp [sigOf, hl, Cache.info]
        have : (cfg o P).kind (.f (.sym n)) = .base a out (.ev (.sym n)) := by
          show ekind P (.f (.sym n)) = _
          simp [ekind, ht, hb, hs]
        unfold Gen.evalFun
        rw [this]
    rcases h with rfl | ⟨a, out, hd, hn⟩
    · exact key _ [] .message (lookup_builtin hL (c := .func ⟨.sym "empty", .fixed [] .message, false⟩) (by simp [builtinFunctions])) rfl (by decide) (by decide)
    · obtain ⟨s, hs, h1, h2⟩ := out_sort hL.ok hd
      have hnew := new_name hL hd
      refine key _ (a.map fun s => asCond (P.env.sortD s)) (asCond s) (lookup_func hL hd) (by
        have e : P.env.sortD out = s := by rw [hL.env, fileEnv_sortD, h2]
        rw [e]
        have : s ≠ .name := fun h => hn (h ▸ h1)
        congr 1
        cases s <;> first | rfl | exact absurd rfl this) (fun hm => hnew ?_) (fun hm => hnew ?_)
      · have : ∀ m ∈ macros, m ∈ builtinFunctions.map Prod.fst := by decide +kernel
        exact this n hm
      · rw [hm]; decide +kernel

theorem not_builtin_env (hL : Loaded (env0 sh) l ig P) {n : String} {c : Cache} (h : (n, c) ∈ P.env.functions) :
    isBuiltin (.f (c.info n).sym) = false ↔ n ∉ solverNames := by
  have hk : ∀ p ∈ builtinFunctions, isBuiltin (.f (p.2.info p.1).sym) = false ↔ p.1 ∉ solverNames := by decide +kernel
  have hin : ∀ m ∈ solverNames, m ∈ builtinFunctions.map Prod.fst := by decide +kernel
  rw [hL.env] at h
  rw [fileEnv_functions] at h
  rcases List.mem_append.1 h with h1 | h1
  · exact hk _ h1
  · have hn : n ∉ solverNames := fun hm => by
      have hk : n ∈ objNames l ++ extraInit l := by rw [← newFunctions_names (env0 sh)]; exact List.mem_map.2 ⟨_, h1, rfl⟩
      exact hL.ok.objs.2 n hk (List.mem_append_left _ (hin n hm))
    refine iff_of_true ?_ hn
    rw [← fileEnv_functions] at h
    rcases mem_fileEnv h with h | ⟨d, _, h⟩ | h
    · exact (hk _ h).2 hn
    · cases d <;> simp only [mkCache, Option.some.injEq, Prod.mk.injEq, reduceCtorEq] at h <;> obtain ⟨rfl, rfl⟩ := h <;> rfl
    · cases h; rfl

/-- Which symbols of the first two classes are symbols of the problem. -/
theorem symbols_mem (hL : Loaded (env0 sh) l ig P) (hB : toProb o P = some B) :
    (∀ x, BF.f x ∈ B.symbols ↔ (∃ n c, (n, c) ∈ P.env.functions ∧ n ∉ solverNames ∧ x = (c.info n).sym) ∨ (∃ k < P.tbl.length, x = .taq k) ∨
      x = .evalMsg ∨ x = .evalCond) ∧
    ∀ x, BF.ev x ∈ B.symbols ↔ o.symbolic = true ∧ o.noBitstring = false ∧ ∃ n, x = .sym n ∧ HasBits (env0 sh) l n := by
  have hass := assSyms_nodup hL hB
  have hev := evalFun_iff (o := o) hL
  obtain ⟨G, hG, e⟩ := Option.map_eq_some_iff.1 hB
  have hE : B.K.E = cfg o P := by rw [← e]
  have hb : B.builtin = isBuiltin := by rw [← e]
  have hc : B.crypto = P.crypto.zipIdx.map fun c => toAss o P c.2 c.1 := by rw [← e]
  clear e
  have hcr : ∀ x ∈ B.crypto.flatMap B.assSyms, tag x = 4 := by
    intro x hx
    rw [hc] at hx
    obtain ⟨a, ha, hx⟩ := List.mem_flatMap.1 hx
    obtain ⟨c, _, rfl⟩ := List.mem_map.1 ha
    exact ((hass _ _).2 x hx).1
  have hsk : ∀ x ∈ (cfg o P).functions.flatMap (Gen.skolems (cfg o P)), tag x = 3 := by
    intro x hx
    obtain ⟨a, _, hx⟩ := List.mem_flatMap.1 hx
    unfold Gen.skolems at hx
    split at hx
    · obtain ⟨i, _, rfl⟩ := List.mem_map.1 hx; rfl
    · cases hx
  have hev1 : ∀ x ∈ (cfg o P).functions.filterMap (Gen.evalFun (cfg o P)), tag x = 1 := by
    intro x hx
    obtain ⟨y, _, hy⟩ := List.mem_filterMap.1 hx
    exact (evalFun_inj hy hy).2
  have hfn : ∀ x, BF.f x ∈ (cfg o P).functions.filter (fun f => !isBuiltin f) ↔
      (∃ n c, (n, c) ∈ P.env.functions ∧ n ∉ solverNames ∧ x = (c.info n).sym) ∨ ∃ k < P.tbl.length, x = .taq k := by
    intro x
    rw [List.mem_filter, cfg_functions, List.mem_append]
    constructor
    · rintro ⟨h | h, h2⟩
      · obtain ⟨a, ha, e⟩ := List.mem_map.1 h
        cases e
        obtain ⟨⟨n, c⟩, hp, rfl⟩ := List.mem_map.1 ha
        exact .inl ⟨n, c, hp, (not_builtin_env hL hp).1 (by simpa using h2), rfl⟩
      · obtain ⟨k, hk, e⟩ := List.mem_map.1 h
        cases e
        exact .inr ⟨k, List.mem_range.1 hk, rfl⟩
    · rintro (⟨n, c, hp, hn, rfl⟩ | ⟨k, hk, rfl⟩)
      · exact ⟨.inl (List.mem_map.2 ⟨_, List.mem_map.2 ⟨_, hp, rfl⟩, rfl⟩), by simpa using (not_builtin_env hL hp).2 hn⟩
      · exact ⟨.inr (List.mem_map.2 ⟨k, List.mem_range.2 hk, rfl⟩), rfl⟩
  unfold Gen.Prob.symbols
  rw [hE, hb, evalSorts_eq hL]
  refine ⟨fun x => ?_, fun x => ?_⟩
  · simp only [List.mem_append]
    constructor
    · rintro ((((h | h) | h) | h) | h)
      · rcases (hfn x).1 h with h | h
        · exact .inl h
        · exact .inr (.inl h)
      · simp only [cfg, List.map_cons, List.map_nil, List.mem_cons, BF.f.injEq, List.not_mem_nil, or_false] at h
        exact .inr (.inr h)
      · exfalso
        split at h
        · rcases List.mem_append.1 h with h | h
          · exact absurd (hev1 _ h) (by simp [tag])
          · simp [cfg] at h
        · cases h
      · exact absurd (hsk _ h) (by simp [tag])
      · exact absurd (hcr _ h) (by simp [tag])
    · rintro (h | h | h)
      · exact .inl (.inl (.inl (.inl ((hfn x).2 (.inl h)))))
      · exact .inl (.inl (.inl (.inl ((hfn x).2 (.inr h)))))
      · refine .inl (.inl (.inl (.inr ?_)))
        simpa only [cfg, List.map_cons, List.map_nil, List.mem_cons, BF.f.injEq, List.not_mem_nil, or_false] using h
  · rw [← hev x]
    simp only [List.mem_append]
    constructor
    · rintro ((((h | h) | h) | h) | h)
      · have h := (List.mem_filter.1 h).1
        rw [cfg_functions] at h
        rcases List.mem_append.1 h with h | h <;> obtain ⟨a, _, e⟩ := List.mem_map.1 h <;> cases e
      · simp [cfg] at h
      · split at h
        · rename_i hsy
          simp only [cfg, Bool.and_eq_true, Bool.not_eq_true'] at hsy
          refine ⟨hsy.1, hsy.2, ?_⟩
          rcases List.mem_append.1 h with h | h
          · obtain ⟨y, hy, e⟩ := List.mem_filterMap.1 h
            exact ⟨y, hy, e⟩
          · simp [cfg] at h
        · cases h
      · exact absurd (hsk _ h) (by simp [tag])
      · exact absurd (hcr _ h) (by simp [tag])
    · rintro ⟨h1, h2, y, hy, e⟩
      refine .inl (.inl (.inr ?_))
      rw [if_pos (by simp [cfg, h1, h2])]
      exact List.mem_append_left _ (List.mem_filterMap.2 ⟨y, hy, e⟩)

/-- A function of the file that gives steps makes the generators panic. -/
theorem step_panics (hL : Loaded (env0 sh) l ig P) (hB : toProb o P = some B) {n : String} {a : List String} {out : String}
    (hd : Decl.func n a out ∈ l) (ho : (env0 sh).sorts.lookup out = some .step) : B.file = none := by
  have hlk := lookup_func hL hd
  obtain ⟨s, _, h1, h2⟩ := out_sort hL.ok hd
  rw [ho] at h1
  cases h1
  have e2 : P.env.sortD out = .step := by rw [hL.env, fileEnv_sortD, h2]
  rw [e2] at hlk
  have hnew := new_name hL hd
  have ht : n ≠ "ta$iff" := fun ht => hnew (by rw [ht]; decide +kernel)
  have hbase : isBase P n = true := by
    have hm : n ∉ macros := fun hm => hnew ((by decide +kernel : ∀ m ∈ macros, m ∈ builtinFunctions.map Prod.fst) n hm)
    simp [isBase, hlk, asCond, hm, ht]
  have hk : (cfg o P).kind (.f (.sym n)) = .base (a.map fun s => asCond (P.env.sortD s)) .step (.ev (.sym n)) := by
    show ekind P (.f (.sym n)) = _
    have hs : sigOf P (.sym n) = some (a.map fun s => asCond (P.env.sortD s), .step) := by simp [sigOf, hlk, Cache.info, asCond]
    simp [ekind, ht, hbase, hs]
  have hc : (cfg o P).checked = false := by
    rw [Bool.eq_false_iff]
    intro hc
    have := List.all_eq_true.1 hc (.f (.sym n)) (by
      rw [cfg_functions]
      exact List.mem_append_left _ (List.mem_map.2 ⟨_, List.mem_map.2 ⟨_, lookup_map_mem hlk, rfl⟩, rfl⟩))
    rw [hk] at this
    cases this
  have hgen : (cfg o P).generate = none := by
    unfold Ev.Cfg.generate
    rw [hc]
    rfl
  obtain ⟨G, hG, rfl⟩ := Option.map_eq_some_iff.1 hB
  by_contra hne
  obtain ⟨g, hf⟩ := Option.ne_none_iff_exists'.1 hne
  unfold Gen.Prob.file at hf
  split at hf
  · rename_i ha _
    unfold Gen.Prob.axioms at ha
    split at ha
    · rename_i he _ _ _
      have he : (cfg o P).generate = _ := he
      rw [hgen] at he
      cases he
    · cases ha
  · cases hf

theorem noStep (hL : Loaded (env0 sh) l ig P) (hB : toProb o P = some B) (hg : B.file = some g) : NoStepFun (env0 sh) l := by
  intro n a out hd ho
  rw [step_panics hL hB hd ho] at hg
  cases hg

theorem dest_not (hB : toProb o P = some B) : ∀ x, BF.f x ∉ B.destructors ∧ BF.ev x ∉ B.destructors := by
  obtain ⟨G, hG, rfl⟩ := Option.map_eq_some_iff.1 hB
  intro x
  unfold Gen.Prob.destructors
  simp

end

/-! ## The protocol in which the generators search -/

/-- SPECIFICATION. The same step over other symbols. -/
def SameStep (h : BF → Sym) (g : Dep.GStep BF) (p : Step) : Prop :=
  h g.fn = .step p.fid ∧ g.vars = p.vars ∧ g.condition.mapF h = p.condition ∧ g.message.mapF h = p.message

/-- SPECIFICATION. The same assignment. -/
def SameAssign (h : BF → Sym) (g : Dep.GAssign BF) (p : Assign) : Prop :=
  SameStep h g.step p.step ∧ g.args.map (Fm.mapF h) = p.args ∧ g.content.mapF h = p.content ∧ g.fresh = p.fresh

/-- SPECIFICATION. The same cell. -/
def SameCell (h : BF → Sym) (g : Dep.GCell BF) (p : Cell) : Prop := g.fid = p.fid ∧ List.Forall₂ (SameAssign h) g.assigns p.assigns

theorem mapF_up {G : Type} (h : BF → G) (φ : Fm PF) : (up φ).mapF h = φ.mapF fun x => h (.f x) := by
  unfold up
  induction φ using Fm.ind with
  | hvar v => rfl
  | happ f args ih =>
    simp only [Fm.mapF, mapFs_eq, List.map_map, Fm.app.injEq, true_and]
    exact List.map_congr_left ih
  | hquant q vs b ih => simp only [Fm.mapF, ih]

theorem forall₂_maps {α β γ : Type} {R : β → γ → Prop} {f : α → β} {g : α → γ} : ∀ {l : List α}, (∀ a ∈ l, R (f a) (g a)) → List.Forall₂ R (l.map f) (l.map g)
  | [], _ => .nil
  | a :: _, h => .cons (h a (by simp)) (forall₂_maps fun b hb => h b (by simp [hb]))

/-- **C84: the generators search the protocol whose executions are meant**: its steps, with their parameters, conditions and messages, and its
cells, with the steps, arguments, contents and fresh variables of their assignments, in the same order. -/
theorem C84_same_protocol (ord : List (String × Cache) → List (String × Cache)) (hord : ∀ l, (ord l).Perm l) (o : Opt) (ig sh : Bool) (fuel : Nat)
    (l : List Decl) (P : LProblem) (B : Gen.Prob BF) (hl : load ord fuel ig (env0 sh) l = .ok P) (hB : toProb o P = some B) :
    ∃ h : BF → Sym, (∀ x, h (.f x) = toSym P x) ∧ List.Forall₂ (SameStep h) B.K.steps B.P.steps ∧ List.Forall₂ (SameCell h) B.K.cells B.P.cells := by
  have hL := load_loaded hord (env0_base sh) hl
  obtain ⟨G, hG, rfl⟩ := Option.map_eq_some_iff.1 hB
  let h : BF → Sym := fun | .f x => toSym P x | _ => .happens
  have hstep : ∀ s ∈ P.steps, SameStep h (gstep s) (pstep P s) := by
    intro s hs
    refine ⟨?_, rfl, mapF_up h _, mapF_up h _⟩
    show toSym P (.sym s.name) = .step (num P s.name)
    obtain ⟨zs, h1, ⟨ds, h2, h3⟩, -⟩ := hL.steps
    obtain ⟨z, hz, rfl⟩ := List.mem_map.1 (h1.mem_iff.1 hs)
    obtain ⟨p, hp, hpz⟩ := forall₂_right h3 z hz
    have hp := h2.mem_iff.1 hp
    have hn : z.1.name = p.1 := hpz.name
    rw [← stepsOf_fileEnv (env0_base sh)] at hp
    obtain ⟨⟨n, c⟩, hx, e⟩ := List.mem_filterMap.1 hp
    cases c <;> simp only [Option.some.injEq, reduceCtorEq] at e
    subst e
    simp only at hn
    have hlk := lookup_mem (env_names_nodup hL.ok) hx
    rw [← hL.env] at hlk
    have hne : ∀ m ∈ macros ++ ["ta$iff"], n ≠ m := by
      rintro m hm rfl
      have hin : ∀ m ∈ macros ++ ["ta$iff"], ∃ i, (m, Cache.func i) ∈ builtinFunctions := by
        intro m hm
        simp only [macros, List.cons_append, List.nil_append, List.mem_cons, List.not_mem_nil, or_false] at hm
        rcases hm with rfl | rfl | rfl | rfl | rfl | rfl | rfl | rfl | rfl <;> exact ⟨_, by simp only [builtinFunctions, List.mem_cons, Prod.mk.injEq, String.reduceEq, false_and, true_and, false_or]; exact .inl rfl⟩
      obtain ⟨i, hi⟩ := hin n hm
      rw [lookup_builtin hL hi] at hlk
      cases hlk
    simp only [macros, List.cons_append, List.nil_append, List.mem_cons, List.not_mem_nil, or_false, forall_eq_or_imp, forall_eq] at hne
    rw [hn]
    simp [toSym, hlk, hne]
  refine ⟨h, fun x => rfl, forall₂_maps hstep, forall₂_maps fun c hc => ⟨rfl, ?_⟩⟩
  simp only [gcell, pcell]
  induction c.assigns with
  | nil => exact .nil
  | cons a as ih =>
    rw [List.filterMap_cons, List.filterMap_cons]
    cases e : stepOf P a with
    | none => exact ih
    | some s =>
      refine .cons ⟨hstep s (List.mem_of_find?_eq_some e), ?_, mapF_up h _, rfl⟩ ih
      simp only [List.map_map, down]
      exact List.map_congr_left fun x _ => mapF_up h x

variable (ord : List (String × Cache) → List (String × Cache)) (hord : ∀ l, (ord l).Perm l) (o : Opt) (ig sh : Bool) (fuel : Nat)
  (l : List Decl) (P : LProblem) (B : Gen.Prob BF) (g : SmtM.GenFile BF)

include hord

/-- **C90: what is declared.** The file written for an accepted file declares no symbol twice. It declares every function, step, cell and name of
the file and every builtin function, but the connectives of the solver; the functions made for quantifiers and `find`s; the two evaluations; and,
when bitstring functions are wanted, the evaluated counterparts of `empty` and the functions of the file that are not names, and of nothing else. -/
theorem C90_declared (h : load ord fuel ig (env0 sh) l = .ok P) (hB : toProb o P = some B) (hg : B.file = some g) :
    (g.declarations.flatMap Gen.syms).Nodup ∧
    (∀ x, BF.f x ∈ g.declarations.flatMap Gen.syms ↔ (∃ n c, (n, c) ∈ P.env.functions ∧ n ∉ solverNames ∧ x = (c.info n).sym) ∨
      (∃ k < P.tbl.length, x = .taq k) ∨ x = .evalMsg ∨ x = .evalCond) ∧
    ∀ x, BF.ev x ∈ g.declarations.flatMap Gen.syms ↔ o.symbolic = true ∧ o.noBitstring = false ∧ ∃ n, x = .sym n ∧ HasBits (env0 sh) l n := by
  have hL := load_loaded hord (env0_base sh) h
  obtain ⟨h1, h2⟩ := Gen.C71_declared_once hg (symbols_nodup hL hB)
  obtain ⟨m1, m2⟩ := symbols_mem hL hB
  have hd := dest_not hB
  refine ⟨h1, fun x => ?_, fun x => ?_⟩
  · rw [h2, ← m1]; simp [(hd x).1]
  · rw [h2, ← m2]; simp [(hd x).2]

/-- **C90: sorts are declared once and before they are used**, when the file declares some name: no sort is
introduced twice, and a sort that a declaration mentions, other than `Bool`, is introduced by it or by an earlier one. -/
theorem C90_sorts_partial (h : load ord fuel ig (env0 sh) l = .ok P) (hB : toProb o P = some B) (hg : B.file = some g)
    (hn : HasNames (env0 sh) l) :
    (g.declarations.flatMap Gen.sorts).Nodup ∧ ∀ pre d post, g.declarations = pre ++ d :: post →
      ∀ s ∈ Gen.uses B.I.insort B.K.E.L.out d, s = .bool ∨ s ∈ (pre ++ [d]).flatMap Gen.sorts := by
  have hL := load_loaded hord (env0_base sh) h
  have hT := load_tbl hord h
  have hS := sortsOK hL hT (noStep hL hB hg) hB
  refine ⟨Gen.C71_sorts_once hg hS, fun pre d post hd => Gen.C71_sorts_declared hg hS ?_ ?_ hd⟩
  · obtain ⟨n, a, out, hd, hl⟩ := hn
    have hlk := lookup_func hL hd
    obtain ⟨s, _, h1, h2⟩ := out_sort hL.ok hd
    rw [hl] at h1
    cases h1
    rw [hL.env, fileEnv_sortD, h2, ← fileEnv_sortD, ← hL.env] at hlk
    obtain ⟨G, hG, rfl⟩ := Option.map_eq_some_iff.1 hB
    refine ⟨.f (.sym n), ?_, rfl, .inl ?_, ?_⟩
    · show _ ∈ (cfg o P).functions
      rw [cfg_functions]
      exact List.mem_append_left _ (List.mem_map.2 ⟨_, List.mem_map.2 ⟨_, lookup_map_mem hlk, rfl⟩, rfl⟩)
    · show isName P (.f (.sym n)) = true
      simp [isName, hlk, asCond]
    · show outSort P (.f (.sym n)) = _
      simp [outSort, sigOf, hlk, Cache.info, asCond]
  · intro hsy
    obtain ⟨G, hG, rfl⟩ := Option.map_eq_some_iff.1 hB
    have hin : ∀ n c, (n, c) ∈ builtinFunctions → BF.f (c.info n).sym ∈ (cfg o P).functions := by
      intro n c hc
      rw [cfg_functions]
      exact List.mem_append_left _ (List.mem_map.2 ⟨_, List.mem_map.2 ⟨_, lookup_map_mem (lookup_builtin hL hc), rfl⟩, rfl⟩)
    exact ⟨⟨.f .taIte, hin "ta$ite" (.func ⟨.taIte, .fixed [.condition, .message, .message] .message, false⟩) (by simp [builtinFunctions]), rfl,
        .inr ⟨rfl, hsy⟩, rfl⟩,
      ⟨.f .taTrue, hin "ta$true" (.func ⟨.taTrue, .fixed [] .condition, false⟩) (by simp [builtinFunctions]), rfl, .inr ⟨rfl, hsy⟩, rfl⟩⟩

/-- **C90: the declared signatures.** A function has the sorts of its declaration, with `Bool` read as `Condition`, and its evaluated counterpart
the sorts of the values of these; a cell has its sorts and a point of time, and gives messages; a step has the sorts of its parameters. The builtin
functions with one signature have it. A function made for a quantifier is over its free variables. -/
theorem C90_signatures (h : load ord fuel ig (env0 sh) l = .ok P) (hB : toProb o P = some B) :
    (∀ n a out, Decl.func n a out ∈ l →
      B.I.insort (.f (.sym n)) = some (a.map fun s => asCond (P.env.sortD s)) ∧ B.K.E.L.out (.f (.sym n)) = some (asCond (P.env.sortD out)) ∧
      B.I.insort (.ev (.sym n)) = some (a.map fun s => bits (asCond (P.env.sortD s))) ∧
      B.K.E.L.out (.ev (.sym n)) = some (bits (asCond (P.env.sortD out)))) ∧
    (∀ n a out, Decl.cell n a out ∈ l → B.I.insort (.f (.sym n)) = some (a.map P.env.sortD ++ [.step]) ∧ B.K.E.L.out (.f (.sym n)) = some .message) ∧
    (∀ d, Decl.step d ∈ l → B.I.insort (.f (.sym d.name)) = some (d.params.map fun b => P.env.sortD b.2) ∧
      B.K.E.L.out (.f (.sym d.name)) = some .step) ∧
    (∀ n i a out, (n, Cache.func i) ∈ builtinFunctions → i.sig = .fixed a out → B.I.insort (.f i.sym) = some a ∧ B.K.E.L.out (.f i.sym) = some out) ∧
    (∀ k q bs fr b, P.tbl[k]? = some (.quant q bs fr b) → B.I.insort (.f (.taq k)) = some (fr.map Var.sort) ∧ B.K.E.L.out (.f (.taq k)) = some .condition) ∧
    (∀ k bs fr b c d, P.tbl[k]? = some (.find bs fr b c d) → B.I.insort (.f (.taq k)) = some (fr.map Var.sort) ∧
      B.K.E.L.out (.f (.taq k)) = some .message ∧ ∀ i v, bs[i]? = some v → B.K.E.L.out (.sk (.f (.taq k)) i) = some v.sort) ∧
    B.I.insort (.f .evalMsg) = some [.message] ∧ B.K.E.L.out (.f .evalMsg) = some .bitstring ∧
    B.I.insort (.f .evalCond) = some [.condition] ∧ B.K.E.L.out (.f .evalCond) = some .bool := by
  have hL := load_loaded hord (env0_base sh) h
  obtain ⟨G, hG, rfl⟩ := Option.map_eq_some_iff.1 hB
  show (∀ n a out, Decl.func n a out ∈ l →
      insort P (.f (.sym n)) = some (a.map fun s => asCond (P.env.sortD s)) ∧ outSort P (.f (.sym n)) = some (asCond (P.env.sortD out)) ∧
      insort P (.ev (.sym n)) = some (a.map fun s => bits (asCond (P.env.sortD s))) ∧
      outSort P (.ev (.sym n)) = some (bits (asCond (P.env.sortD out)))) ∧
    (∀ n a out, Decl.cell n a out ∈ l → insort P (.f (.sym n)) = some (a.map P.env.sortD ++ [.step]) ∧ outSort P (.f (.sym n)) = some .message) ∧
    (∀ d, Decl.step d ∈ l → insort P (.f (.sym d.name)) = some (d.params.map fun b => P.env.sortD b.2) ∧
      outSort P (.f (.sym d.name)) = some .step) ∧
    (∀ n i a out, (n, Cache.func i) ∈ builtinFunctions → i.sig = .fixed a out → insort P (.f i.sym) = some a ∧ outSort P (.f i.sym) = some out) ∧
    (∀ k q bs fr b, P.tbl[k]? = some (.quant q bs fr b) → insort P (.f (.taq k)) = some (fr.map Var.sort) ∧ outSort P (.f (.taq k)) = some .condition) ∧
    (∀ k bs fr b c d, P.tbl[k]? = some (.find bs fr b c d) → insort P (.f (.taq k)) = some (fr.map Var.sort) ∧
      outSort P (.f (.taq k)) = some .message ∧ ∀ i v, bs[i]? = some v → outSort P (.sk (.f (.taq k)) i) = some v.sort) ∧
    insort P (.f .evalMsg) = some [.message] ∧ outSort P (.f .evalMsg) = some .bitstring ∧
    insort P (.f .evalCond) = some [.condition] ∧ outSort P (.f .evalCond) = some .bool
  have eb : ∀ s, evaluatedSort s = bits s := fun s => by cases s <;> rfl
  refine ⟨?_, ?_, ?_, ?_, ?_, ?_, rfl, rfl, rfl, rfl⟩
  · intro n a out hd
    have := lookup_func hL hd
    simp [insort, outSort, sigOf, this, Cache.info, eb, Function.comp_def]
  · intro n a out hd
    have := lookup_cell hL hd
    simp [insort, outSort, sigOf, this, Cache.info]
  · intro d hd
    have := lookup_step hL hd
    simp [insort, outSort, sigOf, this, Cache.info, Function.comp_def]
  · intro n i a out hm hi
    have hlk := lookup_builtin hL hm
    simp only [builtinFunctions, List.mem_cons, List.not_mem_nil, or_false, Prod.mk.injEq, Cache.func.injEq] at hm
    rcases hm with ⟨rfl, rfl⟩ | ⟨rfl, rfl⟩ | ⟨rfl, rfl⟩ | ⟨rfl, rfl⟩ | ⟨rfl, rfl⟩ | ⟨rfl, rfl⟩ | ⟨rfl, rfl⟩ | ⟨rfl, rfl⟩ | ⟨rfl, rfl⟩ | ⟨rfl, rfl⟩ |
      ⟨rfl, rfl⟩ | ⟨rfl, rfl⟩ | ⟨rfl, rfl⟩ | ⟨rfl, rfl⟩ | ⟨rfl, rfl⟩ | ⟨rfl, rfl⟩ | ⟨rfl, rfl⟩ | ⟨rfl, rfl⟩ | ⟨rfl, rfl⟩ | ⟨rfl, rfl⟩ | ⟨rfl, rfl⟩ |
      ⟨rfl, rfl⟩ | ⟨rfl, rfl⟩ | ⟨rfl, rfl⟩ | ⟨rfl, rfl⟩ | ⟨rfl, rfl⟩ | ⟨rfl, rfl⟩ | ⟨rfl, rfl⟩ <;> cases hi <;>
    first | exact ⟨rfl, rfl⟩ | simp [insort, outSort, sigOf, hlk, Cache.info]
  · intro k q bs fr b hk
    simp [insort, outSort, sigOf, hk]
  · intro k bs fr b c d hk
    refine ⟨by simp [insort, sigOf, hk], by simp [outSort, sigOf, hk], fun i v hv => by simp [outSort, hk, hv]⟩

/-- **C90 is false of files without names**: the file that is written uses the sort of names, but does not declare it. -/
theorem C90_name_sort_counterexample (h : load ord fuel ig (env0 sh) l = .ok P) (hB : toProb o P = some B) (hg : B.file = some g)
    (hn : ¬ HasNames (env0 sh) l) :
    (∃ d ∈ g.declarations, Srt.name ∈ Gen.uses B.I.insort B.K.E.L.out d) ∧ Srt.name ∉ g.declarations.flatMap Gen.sorts := by
  have hL := load_loaded hord (env0_base sh) h
  have hT := load_tbl hord h
  have hS := sortsOK hL hT (noStep hL hB hg) hB
  have hin : BF.f .nameToMsg ∈ (cfg o P).functions := by
    rw [cfg_functions]
    exact List.mem_append_left _ (List.mem_map.2 ⟨_, List.mem_map.2 ⟨_, lookup_map_mem (lookup_builtin hL (n := "cast$Message$name")
      (c := .func ⟨.nameToMsg, .fixed [.name] .message, false⟩) (by simp [builtinFunctions])), rfl⟩, rfl⟩)
  have hnb : ¬ B.built .name := by
    obtain ⟨G, hG, rfl⟩ := Option.map_eq_some_iff.1 hB
    rintro ⟨f, hf, -, -, ho⟩
    have hf : f ∈ (cfg o P).functions := hf
    have ho : outSort P f = some .name := ho
    rw [cfg_functions] at hf
    rcases List.mem_append.1 hf with hf | hf
    · obtain ⟨a, ha, rfl⟩ := List.mem_map.1 hf
      obtain ⟨⟨n, c⟩, hp, rfl⟩ := List.mem_map.1 ha
      have hp' := hp
      rw [hL.env] at hp
      have hlk : P.env.functions.lookup n = some c := by rw [hL.env]; exact lookup_mem (env_names_nodup hL.ok) hp
      rcases mem_fileEnv hp with e | ⟨d, hd, e⟩ | e
      · simp only [env0, builtinFunctions, List.mem_cons, List.not_mem_nil, or_false, Prod.mk.injEq] at e
        rcases e with ⟨rfl, rfl⟩ | ⟨rfl, rfl⟩ | ⟨rfl, rfl⟩ | ⟨rfl, rfl⟩ | ⟨rfl, rfl⟩ | ⟨rfl, rfl⟩ | ⟨rfl, rfl⟩ | ⟨rfl, rfl⟩ | ⟨rfl, rfl⟩ | ⟨rfl, rfl⟩ |
          ⟨rfl, rfl⟩ | ⟨rfl, rfl⟩ | ⟨rfl, rfl⟩ | ⟨rfl, rfl⟩ | ⟨rfl, rfl⟩ | ⟨rfl, rfl⟩ | ⟨rfl, rfl⟩ | ⟨rfl, rfl⟩ | ⟨rfl, rfl⟩ | ⟨rfl, rfl⟩ | ⟨rfl, rfl⟩ |
          ⟨rfl, rfl⟩ | ⟨rfl, rfl⟩ | ⟨rfl, rfl⟩ | ⟨rfl, rfl⟩ | ⟨rfl, rfl⟩ | ⟨rfl, rfl⟩ | ⟨rfl, rfl⟩ <;>
        first | cases ho | (simp [outSort, sigOf, hlk, Cache.info] at ho)
      · cases d <;> simp only [mkCache, Option.some.injEq, Prod.mk.injEq, reduceCtorEq] at e <;> obtain ⟨rfl, rfl⟩ := e <;>
          simp [Cache.info, outSort, sigOf, hlk] at ho
        obtain ⟨s, _, h1, h2⟩ := out_sort hL.ok hd
        rw [h2] at ho
        have : s = .name := by cases s <;> simp [boolToCond] at ho ⊢
        exact hn ⟨_, _, _, hd, this ▸ h1⟩
      · cases e
        simp [Cache.info, outSort, sigOf, hlk] at ho
    · obtain ⟨k, _, rfl⟩ := List.mem_map.1 hf
      simp only [outSort, sigOf] at ho
      cases e : P.tbl[k]? with
      | none => rw [e] at ho; cases ho
      | some q => rw [e] at ho; cases q <;> simp at ho
  obtain ⟨h1, h2, -⟩ := Gen.C71_name_sort_counterexample hg hS hnb (cast := .f .nameToMsg)
    (by obtain ⟨G, hG, rfl⟩ := Option.map_eq_some_iff.1 hB; exact hin)
    (by obtain ⟨G, hG, rfl⟩ := Option.map_eq_some_iff.1 hB; rfl)
    (by obtain ⟨G, hG, rfl⟩ := Option.map_eq_some_iff.1 hB; rfl)
  exact ⟨h1, h2⟩

/-- **An accepted file need not be written**: a file with a function that gives steps is accepted, but the generators panic on its problem, with
every option. -/
theorem C90_step_functions_counterexample (h : load ord fuel ig (env0 sh) l = .ok P) (hB : toProb o P = some B) {n : String} {a : List String}
    {out : String} (hd : Decl.func n a out ∈ l) (ho : (env0 sh).sorts.lookup out = some .step) : B.file = none :=
  step_panics (load_loaded hord (env0_base sh) h) hB hd ho

omit hord

/-! ## The theorems are about files there are -/

/-- A file with names, quantifiers and a cryptographic assumption. -/
def exFile : List Decl := [
  .type "Idx",
  .func "h" ["Message", "Message"] "Message",
  .func "ver" ["Message", "Idx"] "Bool",
  .func "k" ["Idx"] "Name",
  .cell "c" ["Idx"] "Message",
  .step ⟨"s", [("i", "Idx")], .quant .ex [("j", "Idx")] (.app "ver" [.cvar "in", .cvar "j"]), .app "h" [.cvar "in", .app "k" [.cvar "i"]],
    [⟨none, "c", [.cvar "i"], .cvar "in"⟩]⟩,
  .crypto ⟨"nonce", [], []⟩,
  .query (.quant .all [("i", "Idx")] (.app "happens" [.app "s" [.cvar "i"]]))]

def exOpt : Opt := ⟨true, false, false, false, true, true, 100⟩

/-- A file with a function that gives steps. -/
def exStep : List Decl := [.func "next" ["Step"] "Step", .query (.app "happens" [.app "next" [.cvar "init"]])]

/-- The file is accepted, and written or not. -/
def accepted (o : Opt) (l : List Decl) (n : Nat) (w : Bool) : Bool :=
  match load id 12 false (env0 true) l with
  | .ok P => P.tbl.length == n && match toProb o P with
    | some B => B.file.isSome == w
    | none => false
  | _ => false

theorem accepted_ok {o : Opt} {l : List Decl} {n : Nat} {w : Bool} (h : accepted o l n w = true) : ∃ P B, load id 12 false (env0 true) l = .ok P ∧
    P.tbl.length = n ∧ toProb o P = some B ∧ B.file.isSome = w := by
  unfold accepted at h
  cases e : load id 12 false (env0 true) l with
  | ok P =>
    rw [e] at h
    simp only [Bool.and_eq_true, beq_iff_eq] at h
    cases e' : toProb o P with
    | none => rw [e'] at h; exact absurd h.2 (by simp)
    | some B =>
      rw [e'] at h
      exact ⟨P, B, rfl, h.1, e', by simpa using h.2⟩
  | _ => rw [e] at h; cases h

/-- The hypotheses of `C90_declared`, `C90_sorts_partial`, `C90_signatures` and `C84_same_protocol`, with a function made for a quantifier. -/
example : ∃ P B g, load id 12 false (env0 true) exFile = .ok P ∧ P.tbl.length = 1 ∧ toProb exOpt P = some B ∧ B.file = some g ∧
    HasNames (env0 true) exFile ∧ HasBits (env0 true) exFile "h" := by
  obtain ⟨P, B, h1, h2, h3, h4⟩ := accepted_ok (o := exOpt) (l := exFile) (n := 1) (w := true) (by decide +kernel)
  obtain ⟨g, hg⟩ := Option.isSome_iff_exists.1 h4
  exact ⟨P, B, g, h1, h2, h3, hg, ⟨"k", ["Idx"], "Name", by simp [exFile], rfl⟩, .inr ⟨["Message", "Message"], "Message", by simp [exFile], by decide⟩⟩

/-- The hypotheses of `C90_name_sort_counterexample`: the file of BuildEx has no names. -/
example : ∃ P B g, load id 12 false (env0 true) Bld.Ex.file = .ok P ∧ toProb Bld.Ex.opt P = some B ∧ B.file = some g ∧
    ¬ HasNames (env0 true) Bld.Ex.file := by
  obtain ⟨P, B, h1, h2, h3, h4⟩ := accepted_ok (o := Bld.Ex.opt) (l := Bld.Ex.file) (n := 0) (w := true) (by decide +kernel)
  obtain ⟨g, hg⟩ := Option.isSome_iff_exists.1 h4
  refine ⟨P, B, g, h1, h3, hg, ?_⟩
  rintro ⟨n, a, out, hd, h⟩
  simp only [Bld.Ex.file, List.mem_cons, Decl.func.injEq, List.not_mem_nil, or_false, reduceCtorEq, false_or] at hd
  rcases hd with ⟨rfl, rfl, rfl⟩ | ⟨rfl, rfl, rfl⟩ <;> exact absurd h (by decide)

/-- The hypotheses of `C90_step_functions_counterexample`. -/
example : ∃ P B, load id 12 false (env0 true) exStep = .ok P ∧ toProb exOpt P = some B ∧ Decl.func "next" ["Step"] "Step" ∈ exStep ∧
    (env0 true).sorts.lookup "Step" = some .step := by
  obtain ⟨P, B, h1, h2, h3, h4⟩ := accepted_ok (o := exOpt) (l := exStep) (n := 0) (w := false) (by decide +kernel)
  exact ⟨P, B, h1, h3, by simp [exStep], rfl⟩

end Dcl
end CV
