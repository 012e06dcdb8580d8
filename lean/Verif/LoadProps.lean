import Verif.Load
import Verif.ParserTotal
import Mathlib.Data.List.Forall2
/-
Properties C24 and C54–C57: loading a whole file.
-/
set_option linter.unusedSimpArgs false
namespace CV
namespace Prs

/-! ## Specification: what a file declares -/

def typeNames (l : List Decl) : List String := l.filterMap fun | .type s => some s | _ => none
def stepDecls (l : List Decl) : List StepDecl := l.filterMap fun | .step d => some d | _ => none
def assertionsOf (l : List Decl) : List Tm := l.filterMap fun | .assertion t => some t | _ => none
def lemmasOf (l : List Decl) : List Tm := l.filterMap fun | .lem t => some t | _ => none
def queriesOf (l : List Decl) : List Tm := l.filterMap fun | .query t => some t | _ => none
def ordersOf (l : List Decl) : List OrderDecl := l.filterMap fun | .order t => some t | _ => none
def cryptosOf (l : List Decl) : List CryptoDecl := l.filterMap fun | .crypto t => some t | _ => none

/-- The names of functions, cells and steps, which share a name space. -/
def objNames (l : List Decl) : List String :=
  l.filterMap fun | .func n _ _ => some n | .cell n _ _ => some n | .step d => some d.name | _ => none

/-- The names of macros. -/
def macNames (l : List Decl) : List String := l.filterMap fun | .mac n _ _ => some n | _ => none

/-- The type names a declaration refers to. -/
def Decl.sortNames : Decl → List String
  | .func _ a o => a ++ [o]
  | .cell _ a _ => a
  | .step d => d.params.map (·.2)
  | .mac _ ps _ => ps.map (·.2)
  | _ => []

/-- The names of a list are distinct and none of them is in `base`. -/
def Fresh (base l : List String) : Prop := l.Nodup ∧ ∀ s ∈ l, s ∉ base

/-- The step `init` that is added when a file declares none. -/
def extraInit (l : List Decl) : List String := if "init" ∈ (stepDecls l).map (·.name) then [] else ["init"]

/-- The declarations of a file are in order, relative to what is known beforehand. -/
structure FileOk (D : DEnv) (l : List Decl) : Prop where
  types : Fresh (D.sorts.map (·.1)) (typeNames l)
  objs : Fresh (D.functions.map (·.1) ++ D.used) (objNames l ++ extraInit l)
  macs : Fresh (D.macros.map (·.1)) (macNames l) ∧ ∀ m ∈ macNames l, m ++ "!" ∉ D.used
  sorts : ∀ d ∈ l, ∀ s ∈ d.sortNames, s ∈ D.sorts.map (·.1) ∨ s ∈ typeNames l
  outs : ∀ n a o, Decl.func n a o ∈ l →
    ∃ s ∈ [Srt.bool, .condition, .message, .step, .name], D.sorts.lookup o = some s
  init : ∀ d ∈ stepDecls l, d.name = "init" → d.params = []
  query : (queriesOf l).length = 1

theorem Fresh.cons_iff {base l : List String} {a : String} : Fresh base (a :: l) ↔ a ∉ base ∧ Fresh (base ++ [a]) l := by
  simp only [Fresh, List.nodup_cons, List.mem_cons, List.mem_append, List.mem_singleton, List.not_mem_nil, or_false]
  constructor
  · rintro ⟨⟨h1, h2⟩, h3⟩
    refine ⟨h3 a (.inl rfl), h2, fun s hs hb => ?_⟩
    rcases hb with hb | rfl
    · exact h3 s (.inr hs) hb
    · exact h1 hs
  · rintro ⟨h1, h2, h3⟩
    refine ⟨⟨fun h => h3 a h (.inr rfl), h2⟩, fun s hs hb => ?_⟩
    rcases hs with rfl | hs
    · exact h1 hb
    · exact h3 s hs (.inl hb)

theorem Fresh.perm_base {b b' l : List String} (h : ∀ s, s ∈ b ↔ s ∈ b') : Fresh b l ↔ Fresh b' l := by
  simp only [Fresh, h]

theorem Fresh.append_iff {base l m : List String} : Fresh base (l ++ m) ↔ Fresh base l ∧ Fresh (base ++ l) m := by
  induction l generalizing base with
  | nil => simp [Fresh]
  | cons a l ih =>
    rw [List.cons_append, Fresh.cons_iff, ih, Fresh.cons_iff]
    rw [show base ++ a :: l = base ++ [a] ++ l by simp]
    tauto

/-! ## Total versions of the declarations -/

/-- The sort of a name. -/
def DEnv.sortD (D : DEnv) (s : String) : Srt := (D.sorts.lookup s).getD .index

theorem lookup_isSome {β : Type} (l : List (String × β)) (s : String) : (l.lookup s).isSome = true ↔ s ∈ l.map (·.1) := by
  induction l with
  | nil => simp [List.lookup]
  | cons p l ih =>
    rw [List.lookup_cons]
    by_cases h : s = p.1
    · subst h; simp
    · have : (s == p.1) = false := by simp [h]
      simp only [this, ih, List.map_cons, List.mem_cons, h, false_or]

theorem lookup_append {β : Type} (l m : List (String × β)) (s : String) :
    (l ++ m).lookup s = (l.lookup s).or (m.lookup s) := by
  induction l with
  | nil => simp [List.lookup]
  | cons p l ih =>
    rw [List.cons_append, List.lookup_cons, List.lookup_cons, ih]
    by_cases h : s == p.1 <;> simp [h]

theorem DEnv.contains_iff (D : DEnv) (s : String) : D.contains s = true ↔ s ∈ D.functions.map (·.1) ++ D.used := by
  simp only [DEnv.contains, Bool.or_eq_true, lookup_isSome, List.mem_append, List.contains_iff_mem]

theorem sort_ok {D : DEnv} {s : String} {x : Srt} : D.sort s = .ok x ↔ s ∈ D.sorts.map (·.1) ∧ x = D.sortD s := by
  rw [← lookup_isSome]
  simp only [DEnv.sort, DEnv.sortD]
  cases h : D.sorts.lookup s with
  | none => simp [Out.ofOption]
  | some y => simp [Out.ofOption, eq_comm]

theorem bind_ok {α β : Type} {x : Out α} {f : α → Out β} {b : β} : x.bind f = .ok b ↔ ∃ a, x = .ok a ∧ f a = .ok b := by
  cases x <;> simp [Out.bind]

theorem sortList_ok {D : DEnv} : ∀ {l : List String} {x : List Srt},
    D.sortList l = .ok x ↔ (∀ s ∈ l, s ∈ D.sorts.map (·.1)) ∧ x = l.map D.sortD
  | [], x => by simp [DEnv.sortList, eq_comm]
  | s :: l, x => by
    simp only [DEnv.sortList, bind_ok, sort_ok, sortList_ok, Out.ok.injEq, List.mem_cons, forall_eq_or_imp, List.map_cons]
    constructor
    · rintro ⟨_, ⟨h1, rfl⟩, _, ⟨h2, rfl⟩, rfl⟩
      exact ⟨⟨h1, h2⟩, rfl⟩
    · rintro ⟨⟨h1, h2⟩, rfl⟩
      exact ⟨_, ⟨h1, rfl⟩, _, ⟨h2, rfl⟩, rfl⟩

/-- The cache entry of a declaration. -/
def mkCache (D : DEnv) : Decl → Option (String × Cache)
  | .func n a o => some (n, .func ⟨.sym n, .fixed (a.map fun s => boolToCond (D.sortD s)) (boolToCond (D.sortD o)),
      boolToCond (D.sortD o) == .name⟩)
  | .cell n a _ => some (n, .cell (a.map D.sortD))
  | .step d => some (d.name, .step (d.params.map fun b => (b.1, D.sortD b.2)) d)
  | _ => none

/-- The macro of a declaration. -/
def mkMac (D : DEnv) : Decl → Option (String × MacInfo)
  | .mac n ps b => some (n, ⟨ps.map fun b => (b.1, D.sortD b.2), b⟩)
  | _ => none

/-- The environment with one more declaration. -/
def addDecl (D : DEnv) (d : Decl) : DEnv :=
  { D with functions := D.functions ++ (mkCache D d).toList, macros := D.macros ++ (mkMac D d).toList }

/-- What one declaration is checked for. -/
def DOk (D : DEnv) (q : Option Tm) (d : Decl) : Prop :=
  (∀ s ∈ d.sortNames, s ∈ D.sorts.map (·.1)) ∧
  match d with
  | .func n _ o => D.contains n = false ∧ isTermAlgebra (boolToCond (D.sortD o)) = true
  | .cell n _ _ => D.contains n = false
  | .step d => D.contains d.name = false ∧ (d.name = "init" → d.params = [])
  | .mac n _ _ => D.containsMacro n = false
  | .query _ => q = none
  | _ => True

/-- The state after one declaration. -/
def next (F : Fetched) (d : Decl) : Fetched where
  env := addDecl F.env d
  assertions := F.assertions ++ assertionsOf [d]
  lemmas := F.lemmas ++ lemmasOf [d]
  orders := F.orders ++ ordersOf [d]
  crypto := F.crypto ++ cryptosOf [d]
  query := F.query.or (queriesOf [d]).head?
  bad := F.bad
  init := F.init || (stepDecls [d]).any (·.name == "init")

theorem zip_sorts (D : DEnv) (ps : List Bnd) :
    (ps.map (·.1)).zip ((ps.map (·.2)).map D.sortD) = ps.map fun b => (b.1, D.sortD b.2) := by
  induction ps with
  | nil => rfl
  | cons b l ih => simp only [List.map_cons, List.zip_cons_cons, ih]

theorem fetchOne_ok {F F' : Fetched} {d : Decl} (hb : F.bad = false) :
    (fetchOne F d = .ok F' ∧ F'.bad = false) ↔ DOk F.env F.query d ∧ F' = next F d := by
  rw [fetchOne.eq_def, if_neg (by simp [hb])]
  cases d with
  | type s =>
    simp only [Out.ok.injEq, DOk, Decl.sortNames]
    constructor
    · rintro ⟨rfl, h⟩
      exact ⟨⟨by simp, trivial⟩, by simp [next, addDecl, mkCache, mkMac, assertionsOf, lemmasOf, ordersOf, cryptosOf, queriesOf, stepDecls]⟩
    · rintro ⟨-, rfl⟩
      exact ⟨by simp [next, addDecl, mkCache, mkMac, assertionsOf, lemmasOf, ordersOf, cryptosOf, queriesOf, stepDecls], hb⟩
  | func n a o =>
    simp only [bind_ok, declareFunc, DOk, Decl.sortNames]
    cases hc : F.env.contains n
    case true => simp [hc]
    case false =>
      simp only [hc, Bool.false_eq_true, if_false, bind_ok, sort_ok, sortList_ok]
      by_cases ho : boolToCond (F.env.sortD o) = .name
      · constructor
        · rintro ⟨⟨D, ⟨_, ⟨h1, rfl⟩, _, ⟨h2, rfl⟩, h3⟩, h4⟩, h5⟩
          rw [if_pos ho] at h3
          cases h3; cases h4
          refine ⟨⟨fun s hs => ?_, by simp, by rw [ho]; rfl⟩, ?_⟩
          · rcases List.mem_append.1 hs with hs | hs
            · exact h2 s hs
            · cases List.mem_singleton.1 hs; exact h1
          · simp [next, addDecl, mkCache, mkMac, assertionsOf, lemmasOf, ordersOf, cryptosOf, queriesOf, stepDecls, ho, List.map_map, Function.comp_def]
        · rintro ⟨⟨h1, _, _⟩, rfl⟩
          refine ⟨⟨_, ⟨_, ⟨h1 _ (by simp), rfl⟩, _, ⟨fun s hs => h1 s (by simp [hs]), rfl⟩, if_pos ho⟩, ?_⟩, hb⟩
          simp [next, addDecl, mkCache, mkMac, assertionsOf, lemmasOf, ordersOf, cryptosOf, queriesOf, stepDecls, ho, List.map_map, Function.comp_def]
      · constructor
        · rintro ⟨⟨D, ⟨_, ⟨h1, rfl⟩, _, ⟨h2, rfl⟩, h3⟩, h4⟩, h5⟩
          rw [if_neg ho] at h3
          split at h3
          case isFalse => cases h3
          case isTrue ht =>
            cases h3; cases h4
            refine ⟨⟨fun s hs => ?_, by simp, ht⟩, ?_⟩
            · rcases List.mem_append.1 hs with hs | hs
              · exact h2 s hs
              · cases List.mem_singleton.1 hs; exact h1
            · simp [next, addDecl, mkCache, mkMac, assertionsOf, lemmasOf, ordersOf, cryptosOf, queriesOf, stepDecls, ho, List.map_map, Function.comp_def]
        · rintro ⟨⟨h1, _, ht⟩, rfl⟩
          refine ⟨⟨_, ⟨_, ⟨h1 _ (by simp), rfl⟩, _, ⟨fun s hs => h1 s (by simp [hs]), rfl⟩, (if_neg ho).trans (if_pos ht)⟩, ?_⟩, hb⟩
          simp [next, addDecl, mkCache, mkMac, assertionsOf, lemmasOf, ordersOf, cryptosOf, queriesOf, stepDecls, ho, List.map_map, Function.comp_def]
  | cell n a s =>
    simp only [bind_ok, declareCell, DOk, Decl.sortNames]
    cases hc : F.env.contains n
    case true => simp [hc]
    case false =>
      simp only [hc, Bool.false_eq_true, if_false, bind_ok, sortList_ok]
      constructor
      · rintro ⟨⟨D, ⟨_, ⟨h2, rfl⟩, h3⟩, h4⟩, h5⟩
        cases h3; cases h4
        exact ⟨⟨h2, by simp⟩, by simp [next, addDecl, mkCache, mkMac, assertionsOf, lemmasOf, ordersOf, cryptosOf, queriesOf, stepDecls]⟩
      · rintro ⟨⟨h1, _⟩, rfl⟩
        exact ⟨⟨_, ⟨_, ⟨h1, rfl⟩, rfl⟩, by simp [next, addDecl, mkCache, mkMac, assertionsOf, lemmasOf, ordersOf, cryptosOf, queriesOf, stepDecls]⟩, hb⟩
  | step d =>
    simp only [bind_ok, declareStep, DOk, Decl.sortNames]
    cases hc : F.env.contains d.name
    case true => simp [hc]
    case false =>
      simp only [hc, Bool.false_eq_true, if_false, bind_ok, sortList_ok]
      constructor
      · rintro ⟨⟨D, ⟨_, ⟨h2, rfl⟩, h3⟩, h4⟩, h5⟩
        split at h3
        case isTrue => cases h3
        case isFalse hi =>
          cases h3; cases h4
          refine ⟨⟨h2, by simp, fun e => Classical.byContradiction fun k => hi ⟨e, k⟩⟩, ?_⟩
          simp only [zip_sorts]
          simp [next, addDecl, mkCache, mkMac, assertionsOf, lemmasOf, ordersOf, cryptosOf, queriesOf, stepDecls]
      · rintro ⟨⟨h1, _, h2⟩, rfl⟩
        refine ⟨⟨_, ⟨_, ⟨h1, rfl⟩, if_neg fun k => k.2 (h2 k.1)⟩, ?_⟩, hb⟩
        simp only [zip_sorts]
        simp [next, addDecl, mkCache, mkMac, assertionsOf, lemmasOf, ordersOf, cryptosOf, queriesOf, stepDecls]
  | mac n ps b =>
    simp only [bind_ok, declareLet, DOk, Decl.sortNames]
    cases hc : F.env.containsMacro n
    case true => simp [hc]
    case false =>
      simp only [hc, Bool.false_eq_true, if_false, bind_ok, sortList_ok]
      constructor
      · rintro ⟨⟨D, ⟨_, ⟨h2, rfl⟩, h3⟩, h4⟩, h5⟩
        cases h3; cases h4
        refine ⟨⟨h2, by simp⟩, ?_⟩
        simp only [zip_sorts]
        simp [next, addDecl, mkCache, mkMac, assertionsOf, lemmasOf, ordersOf, cryptosOf, queriesOf, stepDecls]
      · rintro ⟨⟨h1, _⟩, rfl⟩
        refine ⟨⟨_, ⟨_, ⟨h1, rfl⟩, rfl⟩, ?_⟩, hb⟩
        simp only [zip_sorts]
        simp [next, addDecl, mkCache, mkMac, assertionsOf, lemmasOf, ordersOf, cryptosOf, queriesOf, stepDecls]
  | query t =>
    simp only [DOk, Decl.sortNames]
    cases hq : F.query with
    | some q =>
      simp only [Out.ok.injEq]
      constructor
      · rintro ⟨rfl, h⟩; cases h
      · rintro ⟨⟨-, h⟩, -⟩; cases h
    | none =>
      simp only [Out.ok.injEq]
      constructor
      · rintro ⟨rfl, h⟩
        exact ⟨⟨by simp, trivial⟩, by simp [next, addDecl, mkCache, mkMac, assertionsOf, lemmasOf, ordersOf, cryptosOf, queriesOf, stepDecls, hq]⟩
      · rintro ⟨-, rfl⟩
        exact ⟨by simp [next, addDecl, mkCache, mkMac, assertionsOf, lemmasOf, ordersOf, cryptosOf, queriesOf, stepDecls, hq], hb⟩
  | assertion t =>
    simp only [Out.ok.injEq, DOk, Decl.sortNames]
    constructor
    · rintro ⟨rfl, h⟩
      exact ⟨⟨by simp, trivial⟩, by simp [next, addDecl, mkCache, mkMac, assertionsOf, lemmasOf, ordersOf, cryptosOf, queriesOf, stepDecls]⟩
    · rintro ⟨-, rfl⟩
      exact ⟨by simp [next, addDecl, mkCache, mkMac, assertionsOf, lemmasOf, ordersOf, cryptosOf, queriesOf, stepDecls], hb⟩
  | lem t =>
    simp only [Out.ok.injEq, DOk, Decl.sortNames]
    constructor
    · rintro ⟨rfl, h⟩
      exact ⟨⟨by simp, trivial⟩, by simp [next, addDecl, mkCache, mkMac, assertionsOf, lemmasOf, ordersOf, cryptosOf, queriesOf, stepDecls]⟩
    · rintro ⟨-, rfl⟩
      exact ⟨by simp [next, addDecl, mkCache, mkMac, assertionsOf, lemmasOf, ordersOf, cryptosOf, queriesOf, stepDecls], hb⟩
  | order t =>
    simp only [Out.ok.injEq, DOk, Decl.sortNames]
    constructor
    · rintro ⟨rfl, h⟩
      exact ⟨⟨by simp, trivial⟩, by simp [next, addDecl, mkCache, mkMac, assertionsOf, lemmasOf, ordersOf, cryptosOf, queriesOf, stepDecls]⟩
    · rintro ⟨-, rfl⟩
      exact ⟨by simp [next, addDecl, mkCache, mkMac, assertionsOf, lemmasOf, ordersOf, cryptosOf, queriesOf, stepDecls], hb⟩
  | crypto t =>
    simp only [Out.ok.injEq, DOk, Decl.sortNames]
    constructor
    · rintro ⟨rfl, h⟩
      exact ⟨⟨by simp, trivial⟩, by simp [next, addDecl, mkCache, mkMac, assertionsOf, lemmasOf, ordersOf, cryptosOf, queriesOf, stepDecls]⟩
    · rintro ⟨-, rfl⟩
      exact ⟨by simp [next, addDecl, mkCache, mkMac, assertionsOf, lemmasOf, ordersOf, cryptosOf, queriesOf, stepDecls], hb⟩

/-- Every declaration passes its checks. -/
def LOk : Fetched → List Decl → Prop
  | _, [] => True
  | F, d :: l => DOk F.env F.query d ∧ LOk (next F d) l

theorem fetchLoop_bad : ∀ {l : List Decl} {F F' : Fetched}, F.bad = true → fetchLoop l F = .ok F' → F'.bad = true
  | [], F, F', hb, h => by simp only [fetchLoop, Out.ok.injEq] at h; subst h; exact hb
  | d :: l, F, F', hb, h => by
    rw [fetchLoop, fetchOne.eq_def, if_pos hb] at h
    exact fetchLoop_bad hb h

theorem fetchLoop_ok : ∀ {l : List Decl} {F F' : Fetched}, F.bad = false →
    ((fetchLoop l F = .ok F' ∧ F'.bad = false) ↔ LOk F l ∧ F' = l.foldl next F)
  | [], F, F', hb => by
    simp only [fetchLoop, Out.ok.injEq, LOk, List.foldl_nil, true_and]
    constructor
    · rintro ⟨rfl, -⟩; rfl
    · rintro rfl; exact ⟨rfl, hb⟩
  | d :: l, F, F', hb => by
    simp only [fetchLoop, bind_ok, LOk, List.foldl_cons]
    constructor
    · rintro ⟨⟨F1, h1, h2⟩, h3⟩
      cases hb1 : F1.bad with
      | true => rw [fetchLoop_bad hb1 h2] at h3; cases h3
      | false =>
        obtain ⟨h4, rfl⟩ := (fetchOne_ok hb).1 ⟨h1, hb1⟩
        obtain ⟨h5, h6⟩ := (fetchLoop_ok hb1).1 ⟨h2, h3⟩
        exact ⟨⟨h4, h5⟩, h6⟩
    · rintro ⟨⟨h4, h5⟩, h6⟩
      obtain ⟨h1, hb1⟩ := (fetchOne_ok (F' := next F d) hb).2 ⟨h4, rfl⟩
      obtain ⟨h2, h3⟩ := (fetchLoop_ok hb1).2 ⟨h5, h6⟩
      exact ⟨⟨_, h1, h2⟩, h3⟩

/-- The checks on a list of declarations, declaratively. -/
structure LFacts (F : Fetched) (l : List Decl) : Prop where
  objs : Fresh (F.env.functions.map (·.1) ++ F.env.used) (objNames l)
  macs : Fresh (F.env.macros.map (·.1)) (macNames l)
  macu : ∀ m ∈ macNames l, m ++ "!" ∉ F.env.used
  sorts : ∀ d ∈ l, ∀ s ∈ d.sortNames, s ∈ F.env.sorts.map (·.1)
  outs : ∀ n a o, Decl.func n a o ∈ l → isTermAlgebra (boolToCond (F.env.sortD o)) = true
  init : ∀ d ∈ stepDecls l, d.name = "init" → d.params = []
  query : (F.query.toList ++ queriesOf l).length ≤ 1

theorem not_contains {D : DEnv} {s : String} : D.contains s = false ↔ s ∉ D.functions.map (·.1) ++ D.used := by
  rw [← DEnv.contains_iff, Bool.not_eq_true]

theorem not_containsMacro {D : DEnv} {s : String} :
    D.containsMacro s = false ↔ s ∉ D.macros.map (·.1) ∧ s ++ "!" ∉ D.used := by
  rw [← Bool.not_eq_true]
  simp only [DEnv.containsMacro, Bool.or_eq_true, lookup_isSome, List.contains_iff_mem, not_or]

theorem fresh_shift {a b l : List String} {n : String} : Fresh (a ++ b ++ [n]) l ↔ Fresh (a ++ [n] ++ b) l :=
  Fresh.perm_base fun s => by simp only [List.mem_append]; tauto

theorem LOk_iff : ∀ (l : List Decl) (F : Fetched), LOk F l ↔ LFacts F l
  | [], F => by
    simp only [LOk, true_iff]
    refine ⟨?_, ?_, ?_, ?_, ?_, ?_, ?_⟩ <;> simp [objNames, macNames, stepDecls, queriesOf, Fresh]
  | d :: l, F => by
    rw [LOk, LOk_iff l]
    have hsorts : (∀ s ∈ d.sortNames, s ∈ F.env.sorts.map (·.1)) ∧ (∀ d' ∈ l, ∀ s ∈ d'.sortNames, s ∈ F.env.sorts.map (·.1)) ↔
        ∀ d' ∈ d :: l, ∀ s ∈ d'.sortNames, s ∈ F.env.sorts.map (·.1) := by simp
    have houts : (∀ n a o, Decl.func n a o ∈ d :: l → isTermAlgebra (boolToCond (F.env.sortD o)) = true) ↔
        (∀ n a o, d = Decl.func n a o → isTermAlgebra (boolToCond (F.env.sortD o)) = true) ∧
        (∀ n a o, Decl.func n a o ∈ l → isTermAlgebra (boolToCond (F.env.sortD o)) = true) := by
      constructor
      · exact fun h => ⟨fun n a o e => h n a o (by simp [e]), fun n a o e => h n a o (by simp [e])⟩
      · rintro ⟨h1, h2⟩ n a o h
        rcases List.mem_cons.1 h with e | h
        · exact h1 n a o e.symm
        · exact h2 n a o h
    constructor
    · rintro ⟨⟨hs, hd⟩, h⟩
      obtain ⟨h1, h2, h3, h4, h5, h6, h7⟩ := h
      have h4' := hsorts.1 ⟨hs, h4⟩
      cases d <;> simp only [next, addDecl, mkCache, mkMac, Option.toList_some, Option.toList_none, List.append_nil, List.map_append, List.map_cons,
        List.map_nil] at h1 h2 h3 h5 h6 h7 hd
      case func n a o =>
        refine ⟨?_, h2, h3, h4', houts.2 ⟨?_, h5⟩, h6, ?_⟩
        · exact Fresh.cons_iff.2 ⟨not_contains.1 hd.1, fresh_shift.2 h1⟩
        · intro n' a' o' e
          cases e; exact hd.2
        · simpa [queriesOf] using h7
      case cell n a o =>
        refine ⟨?_, h2, h3, h4', houts.2 ⟨?_, h5⟩, h6, ?_⟩
        · exact Fresh.cons_iff.2 ⟨not_contains.1 hd, fresh_shift.2 h1⟩
        · intro n' a' o' e; cases e
        · simpa [queriesOf] using h7
      case step d =>
        refine ⟨?_, h2, h3, h4', houts.2 ⟨?_, h5⟩, ?_, ?_⟩
        · exact Fresh.cons_iff.2 ⟨not_contains.1 hd.1, fresh_shift.2 h1⟩
        · intro n' a' o' e; cases e
        · intro d' hd'
          rcases List.mem_cons.1 (show d' ∈ d :: stepDecls l from hd') with rfl | hd'
          · exact hd.2
          · exact h6 d' hd'
        · simpa [queriesOf] using h7
      case mac n ps b =>
        have hd := not_containsMacro.1 hd
        refine ⟨h1, ?_, ?_, h4', houts.2 ⟨?_, h5⟩, h6, ?_⟩
        · exact Fresh.cons_iff.2 ⟨hd.1, h2⟩
        · intro m hm
          rcases List.mem_cons.1 (show m ∈ n :: macNames l from hm) with rfl | hm
          · exact hd.2
          · exact h3 m hm
        · intro n' a' o' e; cases e
        · simpa [queriesOf] using h7
      case query t =>
        refine ⟨h1, h2, h3, h4', houts.2 ⟨?_, h5⟩, h6, ?_⟩
        · intro n' a' o' e; cases e
        · simpa [queriesOf, hd] using h7
      all_goals
        refine ⟨h1, h2, h3, h4', houts.2 ⟨?_, h5⟩, h6, ?_⟩
        · intro n' a' o' e; cases e
        · simpa [queriesOf] using h7
    · rintro ⟨h1, h2, h3, h4, h5, h6, h7⟩
      obtain ⟨h4a, h4b⟩ := hsorts.2 h4
      obtain ⟨h5a, h5b⟩ := houts.1 h5
      cases d
      case func n a o =>
        have := Fresh.cons_iff.1 (show Fresh _ (n :: objNames l) from h1)
        refine ⟨⟨h4a, not_contains.2 this.1, h5a n a o rfl⟩, ?_, ?_, h3, h4b, h5b, h6, ?_⟩
        · simpa [next, addDecl, mkCache] using fresh_shift.1 this.2
        · simpa [next, addDecl, mkMac] using (show Fresh _ (macNames l) from h2)
        · simpa [queriesOf, next] using h7
      case cell n a o =>
        have := Fresh.cons_iff.1 (show Fresh _ (n :: objNames l) from h1)
        refine ⟨⟨h4a, not_contains.2 this.1⟩, ?_, ?_, h3, h4b, h5b, h6, ?_⟩
        · simpa [next, addDecl, mkCache] using fresh_shift.1 this.2
        · simpa [next, addDecl, mkMac] using (show Fresh _ (macNames l) from h2)
        · simpa [queriesOf, next] using h7
      case step d =>
        have := Fresh.cons_iff.1 (show Fresh _ (d.name :: objNames l) from h1)
        have h6' : ∀ d' ∈ d :: stepDecls l, d'.name = "init" → d'.params = [] := h6
        refine ⟨⟨h4a, not_contains.2 this.1, h6' d (by simp)⟩, ?_, ?_, h3, h4b, h5b, fun d' hd' => h6' d' (by simp [hd']), ?_⟩
        · simpa [next, addDecl, mkCache] using fresh_shift.1 this.2
        · simpa [next, addDecl, mkMac] using (show Fresh _ (macNames l) from h2)
        · simpa [queriesOf, next] using h7
      case mac n ps b =>
        have := Fresh.cons_iff.1 (show Fresh _ (n :: macNames l) from h2)
        have h3' : ∀ m ∈ n :: macNames l, m ++ "!" ∉ F.env.used := h3
        refine ⟨⟨h4a, not_containsMacro.2 ⟨this.1, h3' n (by simp)⟩⟩, ?_, ?_, fun m hm => h3' m (by simp [hm]), h4b, h5b, h6, ?_⟩
        · simpa [next, addDecl, mkCache] using (show Fresh _ (objNames l) from h1)
        · simpa [next, addDecl, mkMac] using this.2
        · simpa [queriesOf, next] using h7
      case query t =>
        have hq : F.query = none := by
          cases hq : F.query with
          | none => rfl
          | some q => simp [hq, queriesOf] at h7
        refine ⟨⟨h4a, hq⟩, ?_, ?_, h3, h4b, h5b, h6, ?_⟩
        · simpa [next, addDecl, mkCache] using (show Fresh _ (objNames l) from h1)
        · simpa [next, addDecl, mkMac] using (show Fresh _ (macNames l) from h2)
        · simpa [queriesOf, next, hq] using h7
      all_goals
        refine ⟨⟨h4a, trivial⟩, ?_, ?_, h3, h4b, h5b, h6, ?_⟩
        · simpa [next, addDecl, mkCache] using (show Fresh _ (objNames l) from h1)
        · simpa [next, addDecl, mkMac] using (show Fresh _ (macNames l) from h2)
        · simpa [queriesOf, next] using h7

theorem mkCache_addDecl (D : DEnv) (d d' : Decl) : mkCache (addDecl D d) d' = mkCache D d' := by cases d' <;> rfl
theorem mkMac_addDecl (D : DEnv) (d d' : Decl) : mkMac (addDecl D d) d' = mkMac D d' := by cases d' <;> rfl

theorem filterMap_cons' {α β : Type} (f : α → Option β) (a : α) (l : List α) :
    (a :: l).filterMap f = (f a).toList ++ l.filterMap f := by
  cases h : f a <;> simp [h]

/-- The environment after all declarations of a file. -/
def addDecls (D : DEnv) (l : List Decl) : DEnv :=
  { D with functions := D.functions ++ l.filterMap (mkCache D), macros := D.macros ++ l.filterMap (mkMac D) }

theorem addDecls_cons (D : DEnv) (d : Decl) (l : List Decl) : addDecls (addDecl D d) l = addDecls D (d :: l) := by
  have h1 : mkCache (addDecl D d) = mkCache D := funext (mkCache_addDecl D d)
  have h2 : mkMac (addDecl D d) = mkMac D := funext (mkMac_addDecl D d)
  simp only [addDecls, h1, h2, filterMap_cons']
  simp [addDecl, List.append_assoc]

theorem foldl_next (l : List Decl) : ∀ F : Fetched, l.foldl next F =
    ⟨addDecls F.env l, F.assertions ++ assertionsOf l, F.lemmas ++ lemmasOf l, F.orders ++ ordersOf l,
      F.crypto ++ cryptosOf l, F.query.or (queriesOf l).head?, F.bad, F.init || (stepDecls l).any (·.name == "init")⟩ := by
  induction l with
  | nil => intro F; simp [addDecls, assertionsOf, lemmasOf, ordersOf, cryptosOf, queriesOf, stepDecls]
  | cons d l ih =>
    intro F
    rw [List.foldl_cons, ih]
    simp only [next, addDecls_cons, assertionsOf, lemmasOf, ordersOf, cryptosOf, queriesOf, stepDecls,
      filterMap_cons' _ d l, filterMap_cons' _ d [], List.filterMap_nil, List.append_nil, List.append_assoc,
      List.any_append, Bool.or_assoc, Option.or_assoc, List.head?_append]

/-- Types are numbered as they come. -/
def withTypes (D : DEnv) : List String → DEnv
  | [] => D
  | s :: l => withTypes { D with sorts := D.sorts ++ [(s, .user D.sorts.length)] } l

theorem declareSorts_ok : ∀ {l : List Decl} {D D' : DEnv},
    declareSorts l D = .ok D' ↔ Fresh (D.sorts.map (·.1)) (typeNames l) ∧ D' = withTypes D (typeNames l)
  | [], D, D' => by simp [declareSorts, typeNames, Fresh, withTypes, eq_comm]
  | d :: l, D, D' => by
    cases d
    case type s =>
      rw [declareSorts, show typeNames (.type s :: l) = s :: typeNames l from rfl, Fresh.cons_iff, withTypes]
      by_cases hs : (D.sorts.lookup s).isSome = true
      · rw [if_pos hs]
        rw [lookup_isSome] at hs
        simp [hs]
      · rw [if_neg hs, declareSorts_ok]
        rw [lookup_isSome] at hs
        simp [hs]
    all_goals exact declareSorts_ok (l := l)

theorem withTypes_rest : ∀ (l : List String) (D : DEnv), (withTypes D l).functions = D.functions ∧
    (withTypes D l).macros = D.macros ∧ (withTypes D l).used = D.used ∧ (withTypes D l).shadowing = D.shadowing
  | [], D => ⟨rfl, rfl, rfl, rfl⟩
  | s :: l, D => by rw [withTypes]; exact withTypes_rest l _

theorem withTypes_sorts : ∀ (l : List String) (D : DEnv),
    (withTypes D l).sorts = D.sorts ++ l.zipIdx.map fun p => (p.1, .user (D.sorts.length + p.2))
  | [], D => by simp [withTypes]
  | s :: l, D => by
    rw [withTypes, withTypes_sorts l]
    simp only [List.append_assoc, List.zipIdx_cons, List.map_cons, List.length_append, List.length_singleton,
      List.singleton_append, Nat.add_zero]
    rw [show (0 + 1) = 0 + 1 from rfl, List.zipIdx_succ]
    simp only [List.map_map, Function.comp_def]
    congr 3
    funext p
    simp only [Nat.add_assoc, Nat.add_comm 1]

theorem withTypes_names (l : List String) (D : DEnv) : (withTypes D l).sorts.map (·.1) = D.sorts.map (·.1) ++ l := by
  rw [withTypes_sorts, List.map_append, List.map_map]
  congr 1
  rw [show (fun x : String × Srt => x.1) ∘ (fun p : String × Nat => (p.1, Srt.user (D.sorts.length + p.2))) = Prod.fst from rfl]
  exact List.zipIdx_map_fst ..

theorem withTypes_lookup (l : List String) (D : DEnv) (s : String) : (withTypes D l).sorts.lookup s =
    (D.sorts.lookup s).or ((l.zipIdx.map fun p => (p.1, Srt.user (D.sorts.length + p.2))).lookup s) := by
  rw [withTypes_sorts, lookup_append]

theorem lookup_map_mem {β : Type} : ∀ {l : List (String × β)} {s : String} {b : β}, l.lookup s = some b → (s, b) ∈ l
  | [], _, _, h => by simp at h
  | p :: l, s, b, h => by
    rw [List.lookup_cons] at h
    by_cases hs : s = p.1
    · subst hs
      simp only [beq_self_eq_true, Option.some.injEq] at h
      subst h; simp
    · have : (s == p.1) = false := by simp [hs]
      rw [this] at h
      exact List.mem_cons_of_mem _ (lookup_map_mem h)

theorem outs_iff {D : DEnv} {l : List String} {o : String} (hk : o ∈ D.sorts.map (·.1) ∨ o ∈ l) :
    isTermAlgebra (boolToCond ((withTypes D l).sortD o)) = true ↔
      ∃ s ∈ [Srt.bool, .condition, .message, .step, .name], D.sorts.lookup o = some s := by
  rw [DEnv.sortD, withTypes_lookup]
  cases h : D.sorts.lookup o with
  | some x =>
    simp only [Option.or_some, Option.some_or, Option.getD_some, Option.some.injEq, List.mem_cons, List.not_mem_nil, or_false]
    cases x <;> simp [boolToCond, isTermAlgebra]
  | none =>
    simp only [Option.none_or, reduceCtorEq, and_false, exists_false, iff_false]
    rcases hk with hk | hk
    · rw [← lookup_isSome, h] at hk; cases hk
    · cases h2 : (l.zipIdx.map fun p => (p.1, Srt.user (D.sorts.length + p.2))).lookup o with
      | none => simp [boolToCond, isTermAlgebra]
      | some x =>
        have := lookup_map_mem h2
        simp only [List.mem_map] at this
        obtain ⟨p, _, e⟩ := this
        cases e
        simp [boolToCond, isTermAlgebra]

/-- The environment of an accepted file: the declarations, and the step `init` if there is none. -/
def fileEnv (D : DEnv) (l : List Decl) : DEnv :=
  let D' := addDecls (withTypes D (typeNames l)) l
  { D' with functions := D'.functions ++ (extraInit l).map fun n => (n, .step [] initDecl) }

theorem names_addDecls (D : DEnv) (l : List Decl) :
    (addDecls D l).functions.map (·.1) = D.functions.map (·.1) ++ objNames l := by
  simp only [addDecls, List.map_append]
  congr 1
  induction l with
  | nil => rfl
  | cons d l ih =>
    rw [objNames, filterMap_cons', filterMap_cons', List.map_append, ih]
    cases d <;> rfl

theorem fetchEnd_ok {F : Fetched} {x : Fetched × Tm} : fetchEnd F = .ok x ↔
    F.bad = false ∧ F.query = some x.2 ∧ (F.init = false → F.env.contains "init" = false) ∧
    x.1 = { F with env := (if F.init then F.env else { F.env with functions := F.env.functions ++ [("init", .step [] initDecl)] }) } := by
  have hd : ∀ D, declareStep F.env initDecl = .ok D ↔ F.env.contains "init" = false ∧
      D = { F.env with functions := F.env.functions ++ [("init", .step [] initDecl)] } := by
    intro D
    simp only [declareStep, initDecl]
    cases F.env.contains "init" <;> simp [DEnv.sortList, Out.bind, eq_comm]
  obtain ⟨F', q⟩ := x
  simp only [fetchEnd, bind_ok]
  have hend : ∀ D, endQuery F D = .ok (F', q) ↔ F.bad = false ∧ F.query = some q ∧ F' = { F with env := D } := by
    intro D
    rw [endQuery]
    cases hb : F.bad with
    | true => simp
    | false =>
      cases hq : F.query with
      | none => simp
      | some q' =>
        simp only [Bool.false_eq_true, if_false, Out.ok.injEq, Prod.mk.injEq, Option.some.injEq, true_and]
        exact ⟨fun h => ⟨h.2, h.1.symm⟩, fun h => ⟨h.2.symm, h.1⟩⟩
  simp only [hend]
  cases hi : F.init with
  | true =>
    simp only [if_true, Out.ok.injEq]
    constructor
    · rintro ⟨_, rfl, h1, h2, h3⟩; exact ⟨h1, h2, nofun, h3⟩
    · rintro ⟨h1, h2, -, h3⟩; exact ⟨_, rfl, h1, h2, h3⟩
  | false =>
    simp only [Bool.false_eq_true, if_false, hd]
    constructor
    · rintro ⟨_, ⟨h0, rfl⟩, h1, h2, h3⟩; exact ⟨h1, h2, fun _ => h0, h3⟩
    · rintro ⟨h1, h2, h0, h3⟩; exact ⟨_, ⟨h0 trivial, rfl⟩, h1, h2, h3⟩

theorem any_init (l : List Decl) : (stepDecls l).any (·.name == "init") = true ↔ "init" ∈ (stepDecls l).map (·.name) := by
  simp only [List.any_eq_true, List.mem_map, beq_iff_eq]

theorem extraInit_eq (l : List Decl) :
    extraInit l = if (stepDecls l).any (·.name == "init") = true then [] else ["init"] := by
  simp only [extraInit, any_init]

theorem fileOk_iff (D : DEnv) (l : List Decl) : FileOk D l ↔ Fresh (D.sorts.map (·.1)) (typeNames l) ∧
    LFacts ⟨withTypes D (typeNames l), [], [], [], [], none, false, false⟩ l ∧ (queriesOf l).length = 1 ∧
    ((stepDecls l).any (·.name == "init") = false → (addDecls (withTypes D (typeNames l)) l).contains "init" = false) := by
  obtain ⟨r1, r2, r3, -⟩ := withTypes_rest (typeNames l) D
  have hinit : Fresh (D.functions.map (·.1) ++ D.used) (objNames l ++ extraInit l) ↔
      Fresh (D.functions.map (·.1) ++ D.used) (objNames l) ∧
      ((stepDecls l).any (·.name == "init") = false → (addDecls (withTypes D (typeNames l)) l).contains "init" = false) := by
    rw [Fresh.append_iff, extraInit_eq]
    cases (stepDecls l).any (·.name == "init") with
    | true => simp [Fresh]
    | false =>
      simp only [Bool.false_eq_true, if_false, true_implies, not_contains, names_addDecls, r1]
      rw [show (addDecls (withTypes D (typeNames l)) l).used = D.used from r3]
      have hn : ["init"].Nodup := by simp
      simp only [Fresh, hn, List.mem_singleton, forall_eq, List.mem_append, true_and]
      tauto
  have hs : ∀ s, s ∈ (withTypes D (typeNames l)).sorts.map (·.1) ↔ s ∈ D.sorts.map (·.1) ∨ s ∈ typeNames l := by
    intro s; rw [withTypes_names, List.mem_append]
  constructor
  · rintro ⟨h1, h2, h3, h4, h5, h6, h7⟩
    have h2 := hinit.1 h2
    refine ⟨h1, ⟨?_, ?_, ?_, ?_, ?_, h6, ?_⟩, h7, h2.2⟩
    · simpa only [r1, r3] using h2.1
    · simpa only [r2] using h3.1
    · simpa only [r3] using h3.2
    · intro d hd s hs'; exact (hs s).2 (h4 d hd s hs')
    · intro n a o h
      exact (outs_iff (h4 _ h o (by simp [Decl.sortNames]))).2 (h5 n a o h)
    · simp only [Option.toList_none, List.nil_append, h7, Nat.le_refl]
  · rintro ⟨h1, ⟨g1, g2, g3, g4, g5, g6, g7⟩, h7, h8⟩
    simp only [r1, r2, r3] at g1 g2 g3
    refine ⟨h1, hinit.2 ⟨g1, h8⟩, ⟨g2, g3⟩, fun d hd s h => (hs s).1 (g4 d hd s h), fun n a o h => ?_, g6, h7⟩
    exact (outs_iff ((hs o).1 (g4 _ h o (by simp [Decl.sortNames])))).1 (g5 n a o h)

/-- **C24**: a file is accepted exactly when its declarations are in order: no two declarations of the same kind share a
name, no name is already in use, all types are known, and there is exactly one query. Then nothing is lost, duplicated or
reordered. -/
theorem C24_accepted_iff (D : DEnv) (l : List Decl) (F : Fetched) (q : Tm) :
    ((declareSorts l D).bind (fetchAll l) = .ok (F, q)) ↔ FileOk D l ∧ F.env = fileEnv D l ∧
      F.assertions = assertionsOf l ∧ F.lemmas = lemmasOf l ∧ F.orders = ordersOf l ∧ F.crypto = cryptosOf l ∧
      queriesOf l = [q] ∧ F.query = some q ∧ F.bad = false ∧ F.init = (stepDecls l).any (·.name == "init") := by
  simp only [bind_ok, declareSorts_ok, fetchAll, fetchEnd_ok, fileOk_iff]
  have henv : fileEnv D l = (if (stepDecls l).any (·.name == "init") = true then addDecls (withTypes D (typeNames l)) l else
      { addDecls (withTypes D (typeNames l)) l with functions := (addDecls (withTypes D (typeNames l)) l).functions ++ [("init", .step [] initDecl)] }) := by
    simp only [fileEnv, extraInit_eq]
    split <;> simp
  constructor
  · rintro ⟨_, ⟨h1, rfl⟩, F0, h2, h3, h4, h5, h6⟩
    obtain ⟨h7, h8⟩ := (fetchLoop_ok rfl).1 ⟨h2, h3⟩
    have h9 := (LOk_iff _ _).1 h7
    rw [foldl_next] at h8
    subst h8
    simp only [Option.none_or, List.nil_append, Bool.false_or] at h4 h5 h6
    have hq : queriesOf l = [q] := by
      have := h9.query
      simp only [Option.toList_none, List.nil_append] at this
      match hql : queriesOf l, h4, this with
      | [a], h4, _ => simpa using h4
    subst h6
    exact ⟨⟨h1, h9, by rw [hq]; rfl, h5⟩, henv.symm, rfl, rfl, rfl, rfl, hq, by simp only [Option.none_or]; exact h4, rfl, by simp only [Bool.false_or]⟩
  · rintro ⟨⟨h1, h2, h3, h4⟩, e1, e2, e3, e4, e5, hq, e6, e7, e8⟩
    obtain ⟨h5, h6⟩ := (fetchLoop_ok (l := l) (F := ⟨withTypes D (typeNames l), [], [], [], [], none, false, false⟩) rfl).2
      ⟨(LOk_iff _ _).2 h2, rfl⟩
    refine ⟨_, ⟨h1, rfl⟩, _, h5, h6, ?_, ?_, ?_⟩
    · rw [foldl_next]; simp [hq]
    · rw [foldl_next]; simpa using h4
    · rw [foldl_next]
      obtain ⟨x1, x2, x3, x4, x5, x6, x7, x8⟩ := F
      simp only at e1 e2 e3 e4 e5 e6 e7 e8
      subst e1 e2 e3 e4 e5 e6 e7 e8
      simp only [henv, hq, Bool.false_or, List.nil_append, Option.none_or, List.head?_cons]

end Prs
end CV
