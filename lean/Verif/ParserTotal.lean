import Verif.SigUnify
/-
Properties C52 and C53: elaboration does not panic, its result does not depend on the bound on recursion used in
the model, and it terminates on files without circular macros.
-/
set_option linter.unusedSimpArgs false
set_option linter.unusedVariables false
namespace CV
namespace Prs

/-! ## The bound on recursion is irrelevant -/

/-- `y` is `x` unless `x` ran out of fuel. -/
def OLe {α : Type} (x y : Out α) : Prop := x ≠ .loop → y = x

theorem OLe.refl {α : Type} (x : Out α) : OLe x x := fun _ => rfl

theorem OLe.bind {α β : Type} {x y : Out α} {f g : α → Out β} (h : OLe x y) (k : ∀ a, OLe (f a) (g a)) :
    OLe (x.bind f) (y.bind g) := by
  intro hl
  cases x with
  | loop => exact absurd rfl hl
  | err => rw [h (by simp)]; rfl
  | panic => rw [h (by simp)]; rfl
  | ok a => rw [h (by simp)]; exact k a hl

def PLe (p q : Realm → Px → Tm → St → PRes) : Prop := ∀ r es t st, OLe (p r es t st) (q r es t st)

theorem parseList_le {p q : Px → Tm → St → PRes} (h : ∀ es t st, OLe (p es t st) (q es t st)) :
    ∀ l st, OLe (parseList p l st) (parseList q l st)
  | [], st => .refl _
  | (es, t) :: l, st => (h es t st).bind fun x => (parseList_le h l x.2).bind fun y => .refl _

theorem parseMacArgs_le {p q : Realm → Px → Tm → St → PRes} (h : PLe p q) (r : Realm) :
    ∀ l st, OLe (parseMacArgs p r l st) (parseMacArgs q r l st)
  | [], st => .refl _
  | (b, t) :: l, st => (h _ _ t st).bind fun x => (parseMacArgs_le h r l x.2).bind fun y => .refl _

theorem parseApp_le {p q : Realm → Px → Tm → St → PRes} (h : PLe p q) (r es i args st) :
    OLe (parseApp p r es i args st) (parseApp q r es i args st) :=
  (parseList_le (h _) _ _).bind fun _ => .refl _

theorem parseApplication_le {p q : Realm → Px → Tm → St → PRes} (h : PLe p q) (E r es f args st) :
    OLe (parseApplication p E r es f args st) (parseApplication q E r es f args st) := by
  cases args with
  | none =>
    simp only [parseApplication]
    cases st.bvars.find? (fun b => b.1 == f) with
    | some b => exact .refl _
    | none => exact (OLe.refl _).bind fun i => parseApp_le h _ _ _ _ _
  | some args => exact (OLe.refl _).bind fun i => parseApp_le h _ _ _ _ _

theorem foldInfix_le {p q : Px → Tm → St → PRes} (h : ∀ es t st, OLe (p es t st) (q es t st)) (g es) :
    ∀ l acc st, OLe (foldInfix p g es l acc st) (foldInfix q g es l acc st)
  | [], _, st => .refl _
  | t :: l, acc, st => (h es t st).bind fun x => foldInfix_le h g es l _ x.2

theorem symInfix_le {p q : Px → Tm → St → PRes} (h : ∀ es t st, OLe (p es t st) (q es t st)) (g es) :
    ∀ l st, OLe (symInfix p g es l st) (symInfix q g es l st)
  | [], st => .refl _
  | t :: l, st => (h es t st).bind fun x => foldInfix_le h g es l _ x.2

theorem parseInfix_le {p q : Realm → Px → Tm → St → PRes} (h : PLe p q) (E r es op ts st) :
    OLe (parseInfix p E r es op ts st) (parseInfix q E r es op ts st) := by
  cases op <;> simp only [parseInfix]
  case hardEq =>
    split
    · exact parseApp_le h _ _ _ _ _
    · exact h _ _ _ _
  case eq => cases r; exact h _ _ _ _; exact parseApp_le h _ _ _ _ _
  case neq => exact parseApplication_le h _ _ _ _ _ _
  case iff => cases r; exact h _ _ _ _; exact parseApp_le h _ _ _ _ _
  case implies => exact parseApp_le h _ _ _ _ _
  case and => cases r; exact symInfix_le (h _) _ _ _ _; exact parseApp_le h _ _ _ _ _
  case or => cases r; exact symInfix_le (h _) _ _ _ _; exact parseApp_le h _ _ _ _ _

theorem parseStepMac_le {p q : Realm → Px → Tm → St → PRes} (h : PLe p q) (E r es s args body st) :
    OLe (parseStepMac p E r es s args body st) (parseStepMac q E r es s args body st) := by
  refine (parseApplication_le h E _ _ _ _ _).bind fun x => ?_
  cases funArgs x.1 with
  | none => exact .refl _
  | some as =>
    simp only
    cases E.steps s with
    | none => exact .refl _
    | some c =>
      cases E.functions s with
      | none => exact .refl _
      | some i =>
        simp only
        split
        · exact (h _ _ _ _).bind fun y => .refl _
        · exact .refl _

theorem parseMac_le {p q : Realm → Px → Tm → St → PRes} (h : PLe p q) (E r es m args st) :
    OLe (parseMac p E r es m args st) (parseMac q E r es m args st) := by
  simp only [parseMac]
  cases E.macros m with
  | none => exact .refl _
  | some mi =>
    simp only
    split
    · exact (parseMacArgs_le h _ _ _).bind fun x => (h _ _ _ _).bind fun y => .refl _
    · exact .refl _

theorem parse_step_le (E : Env) : ∀ n, PLe (parse E n) (parse E (n + 1))
  | 0 => fun r es t st h => absurd rfl h
  | n + 1 => by
    intro r es t st
    have h := parse_step_le E n
    cases t <;> rw [parse, parse]
    case letin => exact (OLe.refl _).bind fun v => (h _ _ _ _).bind fun x => (h _ _ _ _).bind fun y => .refl _
    case ite => exact (h _ _ _ _).bind fun x => (h _ _ _ _).bind fun y => (h _ _ _ _).bind fun z => .refl _
    case find =>
      exact (OLe.refl _).bind fun v => (h _ _ _ _).bind fun z => (OLe.refl _).bind fun v => (h _ _ _ _).bind fun x =>
        (h _ _ _ _).bind fun y => .refl _
    case quant => exact (OLe.refl _).bind fun v => (OLe.refl _).bind fun v => (h _ _ _ _).bind fun x => .refl _
    case cvar => exact parseApplication_le h _ _ _ _ _ _
    case app => exact parseApplication_le h _ _ _ _ _ _
    case infx => exact parseInfix_le h _ _ _ _ _ _
    case msg => exact parseStepMac_le h _ _ _ _ _ _ _
    case cond => exact parseStepMac_le h _ _ _ _ _ _ _
    case mac => exact parseMac_le h _ _ _ _ _ _

theorem parse_le (E : Env) {n m : Nat} (h : n ≤ m) : PLe (parse E n) (parse E m) := by
  induction h with
  | refl => intro r es t st; exact .refl _
  | @step k _ ih =>
    intro r es t st hl
    have := ih r es t st hl
    rw [parse_step_le E k r es t st (by rw [this]; exact hl), this]

/-- **C53 (the outcome is unique).** If elaboration finishes within one bound on recursion and within another, the
outcome (formula and state, error, or panic) is the same. -/
theorem C53_unique (E : Env) (n m : Nat) (r : Realm) (es : Px) (t : Tm) (st : St)
    (hn : parse E n r es t st ≠ .loop) (hm : parse E m r es t st ≠ .loop) : parse E n r es t st = parse E m r es t st := by
  rcases Nat.le_total n m with h | h
  · exact (parse_le E h r es t st hn).symm
  · exact parse_le E h r es t st hm

/-! ## Termination -/

/-- Terms whose macros and steps can be unfolded completely, and which have no `<=>` in the symbolic realm. -/
inductive Fin (E : Env) : Realm → Tm → Prop
  | letin {r b t₁ t₂} : Fin E r t₁ → Fin E r t₂ → Fin E r (.letin b t₁ t₂)
  | ite {r c a b} : Fin E r c → Fin E r a → Fin E r b → Fin E r (.ite c a b)
  | find {r vs c a b} : Fin E .sym c → Fin E .sym a → Fin E .sym b → Fin E r (.find vs c a b)
  | quant {r k vs b} : Fin E r b → Fin E r (.quant k vs b)
  | cvar {r x} : Fin E r (.cvar x)
  | app {r f args} : (∀ i, funOf E r f = some i → ∀ a ∈ args, Fin E (i.sig.realm.getD r) a) → Fin E r (.app f args)
  | infx {r op ts} : (op = .iff → r = .ev) → (∀ a ∈ ts, Fin E (opRealm r op) a) → Fin E r (.infx op ts)
  | msg {r s args} : (∀ i, funOf E r s = some i → ∀ a ∈ args, Fin E (i.sig.realm.getD r) a) →
      (∀ c, E.steps s = some c → Fin E r c.message) → Fin E r (.msg s args)
  | cond {r s args} : (∀ i, funOf E r s = some i → ∀ a ∈ args, Fin E (i.sig.realm.getD r) a) →
      (∀ c, E.steps s = some c → Fin E r c.condition) → Fin E r (.cond s args)
  | mac {r m args} : (∀ c, E.macros m = some c → ∀ z ∈ zipRealms r (c.params.map fun p => argRealm r p.2) args, Fin E z.1 z.2) →
      (∀ c, E.macros m = some c → Fin E r c.body) → Fin E r (.mac m args)

/-- Elaborating `t` needs at most `n` nested calls, in every state. -/
def Done (E : Env) (n : Nat) (r : Realm) (t : Tm) : Prop := ∀ es st, parse E n r es t st ≠ .loop

theorem Done.mono {E : Env} {n m : Nat} (h : n ≤ m) {r : Realm} {t : Tm} (k : Done E n r t) : Done E m r t := by
  intro es st
  rw [parse_le E h r es t st (k es st)]
  exact k es st

theorem done_all {E : Env} (zs : List (Realm × Tm)) (h : ∀ z ∈ zs, ∃ n, Done E n z.1 z.2) : ∃ n, ∀ z ∈ zs, Done E n z.1 z.2 := by
  induction zs with
  | nil => exact ⟨0, fun z hz => by cases hz⟩
  | cons z zs ih =>
    obtain ⟨n, hn⟩ := h z (by simp)
    obtain ⟨m, hm⟩ := ih fun z h' => h z (by simp [h'])
    refine ⟨max n m, fun w hw => ?_⟩
    rcases List.mem_cons.1 hw with rfl | hw
    · exact hn.mono (Nat.le_max_left _ _)
    · exact (hm w hw).mono (Nat.le_max_right _ _)

theorem bind_ne_loop {α β : Type} {x : Out α} {f : α → Out β} (h : x ≠ .loop) (k : ∀ a, f a ≠ .loop) : x.bind f ≠ .loop := by
  cases x with
  | ok a => exact k a
  | err => simp [Out.bind]
  | panic => simp [Out.bind]
  | loop => exact absurd rfl h

theorem ofOption_ne_loop {α : Type} (x : Option α) : Out.ofOption x ≠ .loop := by cases x <;> simp [Out.ofOption]

theorem parseList_done {q : Px → Tm → St → PRes} : ∀ (l : List (Px × Tm)), (∀ z ∈ l, ∀ es st, q es z.2 st ≠ .loop) → ∀ st,
    parseList q l st ≠ .loop
  | [], _, st => by simp [parseList]
  | (es, t) :: l, h, st => bind_ne_loop (h (es, t) (by simp) es st) fun x =>
      bind_ne_loop (parseList_done l (fun z hz => h z (by simp [hz])) x.2) fun y => by simp

theorem parseMacArgs_done {p : Realm → Px → Tm → St → PRes} {r : Realm} : ∀ (l : List ((String × Srt) × Tm)),
    (∀ z ∈ l, ∀ es st, p (argRealm r z.1.2) es z.2 st ≠ .loop) → ∀ st, parseMacArgs p r l st ≠ .loop
  | [], _, st => by simp [parseMacArgs]
  | (b, t) :: l, h, st => bind_ne_loop (h (b, t) (by simp) _ st) fun x =>
      bind_ne_loop (parseMacArgs_done l (fun z hz => h z (by simp [hz])) x.2) fun y => by simp

theorem parseApp_done {p : Realm → Px → Tm → St → PRes} {r es i args st}
    (h : ∀ a ∈ args, ∀ es st, p (i.sig.realm.getD r) es a st ≠ .loop) : parseApp p r es i args st ≠ .loop := by
  refine bind_ne_loop (parseList_done _ (fun z hz es st => ?_) _) fun x => ?_
  · exact h _ (zip_snd_mem hz) es st
  · split
    · exact bind_ne_loop (ofOption_ne_loop _) fun u => by simp
    · simp

theorem parseVar_done {r es v st} : parseVar r es v st ≠ .loop := by
  simp only [parseVar]
  split
  · simp
  · split
    · split
      · simp
      · exact bind_ne_loop (ofOption_ne_loop _) fun u => by simp
    · exact bind_ne_loop (ofOption_ne_loop _) fun u => by simp

theorem parseApplication_done {p : Realm → Px → Tm → St → PRes} {E : Env} {r es f args st}
    (h : ∀ i, funOf E r f = some i → ∀ a ∈ args.getD [], ∀ es st, p (i.sig.realm.getD r) es a st ≠ .loop) :
    parseApplication p E r es f args st ≠ .loop := by
  have key : ∀ args', args' = args.getD [] → (Out.ofOption (getFun E r f)).bind (fun i => parseApp p r es i args' st) ≠ .loop := by
    intro args' e
    cases hg : getFun E r f with
    | none => simp [Out.ofOption, Out.bind]
    | some i =>
      simp only [Out.ofOption, Out.bind]
      exact parseApp_done fun a ha es st => h i (by rw [funOf_eq]; exact hg) a (e ▸ ha) es st
  cases args with
  | none =>
    simp only [parseApplication]
    split
    · exact parseVar_done
    · exact key _ rfl
  | some args => exact key _ rfl

theorem parseBinding_done {E b st} : parseBinding E b st ≠ .loop := by
  simp only [parseBinding]
  split
  · simp
  · split <;> simp

theorem parseBindings_done {E} : ∀ l st, parseBindings E l st ≠ .loop
  | [], st => by simp [parseBindings]
  | b :: l, st => bind_ne_loop parseBinding_done fun x => bind_ne_loop (parseBindings_done l x.2) fun y => by simp

theorem foldInfix_done {q : Px → Tm → St → PRes} {g es} : ∀ (l : List Tm), (∀ t ∈ l, ∀ es st, q es t st ≠ .loop) → ∀ acc st,
    foldInfix q g es l acc st ≠ .loop
  | [], _, _, st => by simp [foldInfix]
  | t :: l, h, acc, st => bind_ne_loop (h t (by simp) es st) fun x => foldInfix_done l (fun z hz => h z (by simp [hz])) _ _

theorem symInfix_done {q : Px → Tm → St → PRes} {g es} (l : List Tm) (h : ∀ t ∈ l, ∀ es st, q es t st ≠ .loop) (st) :
    symInfix q g es l st ≠ .loop := by
  cases l with
  | nil => simp [symInfix]
  | cons t l => exact bind_ne_loop (h t (by simp) es st) fun x => foldInfix_done l (fun z hz => h z (by simp [hz])) _ _

theorem mem_pairTerms {op : Op} : ∀ (ts : List Tm) (t : Tm), t ∈ pairTerms op ts → ∃ a ∈ ts, ∃ b ∈ ts, t = .infx op [a, b]
  | [], _, h => by cases h
  | [_], _, h => by cases h
  | a :: b :: l, t, h => by
    simp only [pairTerms, List.mem_cons] at h
    rcases h with rfl | h
    · exact ⟨a, by simp, b, by simp, rfl⟩
    · obtain ⟨x, hx, y, hy, e⟩ := mem_pairTerms (b :: l) t h
      exact ⟨x, List.mem_cons_of_mem _ hx, y, List.mem_cons_of_mem _ hy, e⟩

/-- A connective on operands. -/
theorem and_done {E : Env} {n : Nat} {r : Realm} {ts : List Tm} (h : ∀ t ∈ ts, Done E n r t) : Done E (n + 1) r (.infx .and ts) := by
  intro es st
  rw [parse]
  simp only [parseInfix]
  cases r
  · exact symInfix_done _ (fun t ht => h t ht) _
  · exact parseApp_done fun a ha es st => h a ha es st

theorem hardEq_done {E : Env} {n : Nat} {r : Realm} {ts : List Tm} (h : ∀ t ∈ ts, Done E n .sym t) : Done E (n + 3) r (.infx .hardEq ts) := by
  have two : ∀ (ts : List Tm), (∀ t ∈ ts, Done E n .sym t) → ts.length = 2 → Done E (n + 1) r (.infx .hardEq ts) := by
    intro ts h hl es st
    rw [parse]
    simp only [parseInfix, hl, if_true]
    exact parseApp_done fun a ha es st => h a ha es st
  by_cases hl : ts.length = 2
  · exact (two ts h hl).mono (by omega)
  · intro es st
    rw [parse]
    simp only [parseInfix, hl, if_false]
    refine and_done (fun t ht => ?_) es st
    obtain ⟨a, ha, b, hb, rfl⟩ := mem_pairTerms ts t ht
    exact two [a, b] (fun t ht => by
      simp only [List.mem_cons, List.not_mem_nil, or_false] at ht
      rcases ht with rfl | rfl
      · exact h _ ha
      · exact h _ hb) rfl

theorem eq_done {E : Env} {n : Nat} {r : Realm} {ts : List Tm} (h : ∀ t ∈ ts, Done E n r t) : Done E (n + 4) r (.infx .eq ts) := by
  cases r with
  | sym =>
    intro es st
    rw [parse]
    simp only [parseInfix]
    exact hardEq_done h es st
  | ev =>
    intro es st
    rw [parse]
    simp only [parseInfix]
    exact parseApp_done fun a ha es st => (h a ha).mono (by omega) es st

theorem parseStepMac_done {p : Realm → Px → Tm → St → PRes} {E : Env} {r es s args body st}
    (h : ∀ i, funOf E r s = some i → ∀ a ∈ args, ∀ es st, p (i.sig.realm.getD r) es a st ≠ .loop)
    (k : ∀ c, E.steps s = some c → ∀ es st, p r es (body c) st ≠ .loop) : parseStepMac p E r es s args body st ≠ .loop := by
  refine bind_ne_loop (parseApplication_done (by simpa using h)) fun x => ?_
  split
  · simp
  · split
    · rename_i c i hc hi
      split
      · exact bind_ne_loop (k c hc _ _) fun y => by simp
      · simp
    · simp

theorem zipRealms_zip {r : Realm} : ∀ (ps : List (String × Srt)) (args : List Tm), ∀ z ∈ ps.zip args,
    (argRealm r z.1.2, z.2) ∈ zipRealms r (ps.map fun p => argRealm r p.2) args
  | [], _, z, h => by simp at h
  | p :: ps, [], z, h => by simp at h
  | p :: ps, t :: args, z, h => by
    simp only [List.zip_cons_cons, List.mem_cons] at h
    simp only [List.map_cons, zipRealms, List.headD_cons, List.tail_cons, List.mem_cons]
    rcases h with rfl | h
    · exact .inl rfl
    · exact .inr (zipRealms_zip ps args z h)

/-- **C53 (termination).** Elaboration of a term whose macros can be unfolded completely, and without `<=>` inside
messages and conditions, finishes: the depth of recursion is bounded, whatever the state and the expected sort. -/
theorem C53_terminates_partial (E : Env) (r : Realm) (t : Tm) (h : Fin E r t) :
    ∃ N, ∀ n, N ≤ n → ∀ es st, parse E n r es t st ≠ .loop := by
  suffices h : ∃ N, Done E N r t by
    obtain ⟨N, hN⟩ := h
    exact ⟨N, fun n hn => hN.mono hn⟩
  induction h with
  | letin _ _ i1 i2 =>
    obtain ⟨n, hn⟩ := i1
    obtain ⟨m, hm⟩ := i2
    refine ⟨max n m + 1, fun es st => ?_⟩
    rw [parse]
    exact bind_ne_loop parseBinding_done fun v => bind_ne_loop (hn.mono (Nat.le_max_left _ _) _ _) fun x =>
      bind_ne_loop (hm.mono (Nat.le_max_right _ _) _ _) fun y => by simp
  | ite _ _ _ i1 i2 i3 =>
    obtain ⟨n, hn⟩ := i1
    obtain ⟨m, hm⟩ := i2
    obtain ⟨k, hk⟩ := i3
    refine ⟨max n (max m k) + 1, fun es st => ?_⟩
    rw [parse]
    exact bind_ne_loop (hn.mono (by omega) _ _) fun x => bind_ne_loop (hm.mono (by omega) _ _) fun y =>
      bind_ne_loop (hk.mono (by omega) _ _) fun z => by simp
  | find _ _ _ i1 i2 i3 =>
    obtain ⟨n, hn⟩ := i1
    obtain ⟨m, hm⟩ := i2
    obtain ⟨k, hk⟩ := i3
    refine ⟨max n (max m k) + 1, fun es st => ?_⟩
    rw [parse]
    exact bind_ne_loop (ofOption_ne_loop _) fun _ => bind_ne_loop (hk.mono (by omega) _ _) fun z =>
      bind_ne_loop (parseBindings_done _ _) fun v => bind_ne_loop (hn.mono (by omega) _ _) fun x =>
      bind_ne_loop (hm.mono (by omega) _ _) fun y => by simp
  | quant _ i1 =>
    obtain ⟨n, hn⟩ := i1
    refine ⟨n + 1, fun es st => ?_⟩
    rw [parse]
    refine bind_ne_loop (ofOption_ne_loop _) fun _ => bind_ne_loop (parseBindings_done _ _) fun v =>
      bind_ne_loop (hn _ _) fun x => ?_
    split <;> simp
  | cvar =>
    refine ⟨1, fun es st => ?_⟩
    rw [parse]
    exact parseApplication_done (fun i hi a ha => by simp at ha)
  | @app r f args _ ih =>
    cases hf : funOf E r f with
    | none =>
      refine ⟨1, fun es st => ?_⟩
      rw [parse]
      exact parseApplication_done (fun i hi => by rw [hf] at hi; cases hi)
    | some i =>
      obtain ⟨n, hn⟩ := done_all (args.map fun a => (i.sig.realm.getD r, a)) (by
        intro z hz
        obtain ⟨a, ha, rfl⟩ := List.mem_map.1 hz
        exact ih i hf a ha)
      refine ⟨n + 1, fun es st => ?_⟩
      rw [parse]
      refine parseApplication_done (fun j hj a ha => ?_)
      rw [hf] at hj; cases hj
      exact hn _ (List.mem_map.2 ⟨a, ha, rfl⟩)
  | @infx r op ts hop _ ih =>
    obtain ⟨n, hn⟩ := done_all (ts.map fun a => (opRealm r op, a)) (by
      intro z hz
      obtain ⟨a, ha, rfl⟩ := List.mem_map.1 hz
      exact ih a ha)
    have hn' : ∀ a ∈ ts, Done E n (opRealm r op) a := fun a ha => hn _ (List.mem_map.2 ⟨a, ha, rfl⟩)
    cases op with
    | hardEq => exact ⟨n + 3, hardEq_done hn'⟩
    | eq => exact ⟨n + 4, eq_done hn'⟩
    | neq =>
      refine ⟨n + 5, fun es st => ?_⟩
      rw [parse]
      simp only [parseInfix]
      refine parseApplication_done (fun i hi a ha => ?_)
      simp only [Option.getD_some, List.mem_cons, List.not_mem_nil, or_false] at ha
      subst ha
      have : i.sig.realm.getD r = r := by
        have hn : ¬ ("not" ∈ ["true", "True"]) ∧ ¬ ("not" ∈ ["false", "False"]) := by decide
        simp only [funOf, hn.1, hn.2, if_false, if_true] at hi
        cases hi
        cases r <;> rfl
      rw [this]
      exact eq_done hn'
    | iff =>
      have : r = .ev := hop rfl
      subst this
      refine ⟨n + 1, fun es st => ?_⟩
      rw [parse]
      simp only [parseInfix]
      exact parseApp_done fun a ha es st => hn' a ha es st
    | implies =>
      refine ⟨n + 1, fun es st => ?_⟩
      rw [parse]
      simp only [parseInfix]
      refine parseApp_done fun a ha es st => ?_
      have : (impInfo r).sig.realm.getD r = r := by cases r <;> rfl
      rw [this]
      exact hn' a ha es st
    | and => exact ⟨n + 1, and_done hn'⟩
    | or =>
      refine ⟨n + 1, fun es st => ?_⟩
      rw [parse]
      simp only [parseInfix]
      cases r
      · exact symInfix_done _ (fun t ht => hn' t ht) _
      · exact parseApp_done fun a ha es st => hn' a ha es st
  | @msg r s args _ _ ih ib =>
    have hb : ∃ n, ∀ c, E.steps s = some c → Done E n r c.message := by
      cases hc : E.steps s with
      | none => exact ⟨0, fun c h => by cases h⟩
      | some c =>
        obtain ⟨n, hn⟩ := ib c hc
        exact ⟨n, fun c' h => by cases h; exact hn⟩
    have ha : ∃ n, ∀ i, funOf E r s = some i → ∀ a ∈ args, Done E n (i.sig.realm.getD r) a := by
      cases hf : funOf E r s with
      | none => exact ⟨0, fun i h => by cases h⟩
      | some i =>
        obtain ⟨n, hn⟩ := done_all (args.map fun a => (i.sig.realm.getD r, a)) (by
          intro z hz
          obtain ⟨a, ha, rfl⟩ := List.mem_map.1 hz
          exact ih i hf a ha)
        exact ⟨n, fun j h a ha => by cases h; exact hn _ (List.mem_map.2 ⟨a, ha, rfl⟩)⟩
    obtain ⟨n, hn⟩ := ha
    obtain ⟨k, hk⟩ := hb
    refine ⟨max n k + 1, fun es st => ?_⟩
    rw [parse]
    exact parseStepMac_done (fun i hi a ha => (hn i hi a ha).mono (Nat.le_max_left _ _))
      (fun c hc => (hk c hc).mono (Nat.le_max_right _ _))
  | @cond r s args _ _ ih ib =>
    have hb : ∃ n, ∀ c, E.steps s = some c → Done E n r c.condition := by
      cases hc : E.steps s with
      | none => exact ⟨0, fun c h => by cases h⟩
      | some c =>
        obtain ⟨n, hn⟩ := ib c hc
        exact ⟨n, fun c' h => by cases h; exact hn⟩
    have ha : ∃ n, ∀ i, funOf E r s = some i → ∀ a ∈ args, Done E n (i.sig.realm.getD r) a := by
      cases hf : funOf E r s with
      | none => exact ⟨0, fun i h => by cases h⟩
      | some i =>
        obtain ⟨n, hn⟩ := done_all (args.map fun a => (i.sig.realm.getD r, a)) (by
          intro z hz
          obtain ⟨a, ha, rfl⟩ := List.mem_map.1 hz
          exact ih i hf a ha)
        exact ⟨n, fun j h a ha => by cases h; exact hn _ (List.mem_map.2 ⟨a, ha, rfl⟩)⟩
    obtain ⟨n, hn⟩ := ha
    obtain ⟨k, hk⟩ := hb
    refine ⟨max n k + 1, fun es st => ?_⟩
    rw [parse]
    exact parseStepMac_done (fun i hi a ha => (hn i hi a ha).mono (Nat.le_max_left _ _))
      (fun c hc => (hk c hc).mono (Nat.le_max_right _ _))
  | @mac r m args _ _ ih ib =>
    cases hc : E.macros m with
    | none => exact ⟨1, fun es st => by rw [parse]; simp [parseMac, hc]⟩
    | some c =>
      obtain ⟨n, hn⟩ := done_all _ (ih c hc)
      obtain ⟨k, hk⟩ := ib c hc
      refine ⟨max n k + 1, fun es st => ?_⟩
      rw [parse]
      simp only [parseMac, hc]
      split
      · refine bind_ne_loop (parseMacArgs_done _ (fun z hz es st => ?_) _) fun x =>
          bind_ne_loop (hk.mono (Nat.le_max_right _ _) _ _) fun y => by simp
        exact (hn _ (zipRealms_zip _ _ z hz)).mono (Nat.le_max_left _ _) es st
      · simp

example : Fin exE .ev exT := .quant (.letin (.app fun i h a ha => by simp at ha; subst ha; exact .cvar)
  (.infx (by simp) fun a ha => by simp at ha; subst ha; exact .cvar))

/-- A file with a macro that uses itself: `m(x) = m!(x)`. -/
def recE : Env := { exE with macros := fun s => if s = "m" then some ⟨[("x", .index)], .mac "m" [.cvar "x"]⟩ else none }

theorem parse_var0 (n : Nat) (r : Realm) (st : St) (x : String) (v : Var) (hv : st.bvars.find? (fun b => b.1 == x) = some (x, v))
    (hs : v.sort = .index) : ∃ st', parse recE (n + 1) r (.stat .index) (.cvar x) st = .ok (.var v, st') := by
  obtain ⟨id, so⟩ := v
  simp only at hs
  subst hs
  cases r <;> simp [parse, parseApplication, hv, parseVar, evaluated, Px.unify, Px.get, eqRealm, Out.ofOption, Out.bind]

/-- **C53 is false of circular macros**: the declaration `m(x) = m!(x)` is not rejected, and elaborating `m!(x)`
never finishes. -/
theorem C53_circular_macro : ∀ (n : Nat) (r : Realm) (es : Px) (st : St) (x : String) (v : Var),
    st.bvars.find? (fun b => b.1 == x) = some (x, v) → v.sort = .index → parse recE n r es (.mac "m" [.cvar x]) st = .loop
  | 0, _, _, _, _, _, _, _ => rfl
  | 1, r, es, st, x, v, hv, hs => by
    simp [parse, parseMac, recE, parseMacArgs, Out.bind]
  | n + 2, r, es, st, x, v, hv, hs => by
    obtain ⟨st', h⟩ := parse_var0 n ((realmOf .index).getD r) st x v hv hs
    rw [parse]
    have hm : recE.macros "m" = some ⟨[("x", .index)], .mac "m" [.cvar "x"]⟩ := rfl
    simp only [parseMac, hm, List.length_cons, List.length_nil, if_true, List.zip_cons_cons, List.zip_nil_right, parseMacArgs, h, Out.bind]
    rw [C53_circular_macro (n + 1) r es _ "x" ⟨0, .index⟩ (by simp [numbered]) rfl]

/-- The state inside `forall (i: Index) {…}`. -/
example : (⟨[("i", ⟨0, .index⟩)], [], []⟩ : St).bvars.find? (fun b => b.1 == "i") = some ("i", ⟨0, .index⟩) := by decide

/-! ## Panics -/

/-- Terms the grammar produces (infix operators have two operands or more); `and` and `or` may have one. -/
inductive Gram : Tm → Prop
  | letin {b t₁ t₂} : Gram t₁ → Gram t₂ → Gram (.letin b t₁ t₂)
  | ite {c a b} : Gram c → Gram a → Gram b → Gram (.ite c a b)
  | find {vs c a b} : Gram c → Gram a → Gram b → Gram (.find vs c a b)
  | quant {k vs b} : Gram b → Gram (.quant k vs b)
  | cvar {x} : Gram (.cvar x)
  | app {f args} : (∀ a ∈ args, Gram a) → Gram (.app f args)
  | infx {op ts} : (if op = .and ∨ op = .or then 1 else 2) ≤ ts.length → (∀ a ∈ ts, Gram a) → Gram (.infx op ts)
  | msg {s args} : (∀ a ∈ args, Gram a) → Gram (.msg s args)
  | cond {s args} : (∀ a ∈ args, Gram a) → Gram (.cond s args)
  | mac {m args} : (∀ a ∈ args, Gram a) → Gram (.mac m args)

/-- What the declaration phase ensures (parser/parser/declare.rs): a step is declared together with a function of the
same parameters, and all texts come from the grammar. -/
structure Env.Decl (E : Env) : Prop where
  step : ∀ s c i, E.steps s = some c → E.functions s = some i → i.sig = .fixed (c.params.map (·.2)) .step ∧ i.isName = false
  texts : ∀ s c, E.steps s = some c → Gram c.message ∧ Gram c.condition
  bodies : ∀ m c, E.macros m = some c → Gram c.body

theorem bind_ne_panic {α β : Type} {x : Out α} {f : α → Out β} (h : x ≠ .panic) (k : ∀ a, x = .ok a → f a ≠ .panic) : x.bind f ≠ .panic := by
  cases x with
  | ok a => exact k a rfl
  | err => simp [Out.bind]
  | loop => simp [Out.bind]
  | panic => exact absurd rfl h

theorem ofOption_ne_panic {α : Type} (x : Option α) : Out.ofOption x ≠ .panic := by cases x <;> simp [Out.ofOption]

/-- `p` does not panic on texts from the grammar. -/
def PSafe (p : Realm → Px → Tm → St → PRes) : Prop := ∀ r es t st, Gram t → p r es t st ≠ .panic

theorem parseList_safe {q : Px → Tm → St → PRes} : ∀ (l : List (Px × Tm)), (∀ z ∈ l, ∀ es st, q es z.2 st ≠ .panic) → ∀ st,
    parseList q l st ≠ .panic
  | [], _, st => by simp [parseList]
  | (es, t) :: l, h, st => bind_ne_panic (h (es, t) (by simp) es st) fun x _ =>
      bind_ne_panic (parseList_safe l (fun z hz => h z (by simp [hz])) x.2) fun y _ => by simp

theorem parseMacArgs_safe {p : Realm → Px → Tm → St → PRes} (hp : PSafe p) {r : Realm} : ∀ (l : List ((String × Srt) × Tm)),
    (∀ z ∈ l, Gram z.2) → ∀ st, parseMacArgs p r l st ≠ .panic
  | [], _, st => by simp [parseMacArgs]
  | (b, t) :: l, h, st => bind_ne_panic (hp _ _ _ st (h (b, t) (by simp))) fun x _ =>
      bind_ne_panic (parseMacArgs_safe hp l (fun z hz => h z (by simp [hz])) x.2) fun y _ => by simp

theorem parseApp_safe {p : Realm → Px → Tm → St → PRes} (hp : PSafe p) {r es i args st} (h : ∀ a ∈ args, Gram a) :
    parseApp p r es i args st ≠ .panic := by
  refine bind_ne_panic (parseList_safe _ (fun z hz es st => hp _ _ _ _ (h _ (zip_snd_mem hz))) _) fun x _ => ?_
  split
  · exact bind_ne_panic (ofOption_ne_panic _) fun u _ => by simp
  · simp

theorem parseVar_safe {r es v st} : parseVar r es v st ≠ .panic := by
  simp only [parseVar]
  split
  · simp
  · split
    · rename_i s hs
      split
      · rename_i hn
        revert hs hn
        cases v.sort <;> simp [evaluated, evalSym]
      · exact bind_ne_panic (ofOption_ne_panic _) fun u _ => by simp
    · exact bind_ne_panic (ofOption_ne_panic _) fun u _ => by simp

theorem parseApplication_safe {p : Realm → Px → Tm → St → PRes} (hp : PSafe p) {E : Env} {r es f args st}
    (h : ∀ a ∈ args.getD [], Gram a) : parseApplication p E r es f args st ≠ .panic := by
  cases args with
  | none =>
    simp only [parseApplication]
    split
    · exact parseVar_safe
    · exact bind_ne_panic (ofOption_ne_panic _) fun i _ => parseApp_safe hp h
  | some args => exact bind_ne_panic (ofOption_ne_panic _) fun i _ => parseApp_safe hp h

theorem parseBinding_safe {E b st} : parseBinding E b st ≠ .panic := by
  simp only [parseBinding]
  split
  · simp
  · split <;> simp

theorem parseBindings_safe {E} : ∀ l st, parseBindings E l st ≠ .panic
  | [], st => by simp [parseBindings]
  | b :: l, st => bind_ne_panic parseBinding_safe fun x _ => bind_ne_panic (parseBindings_safe l x.2) fun y _ => by simp

theorem foldInfix_safe {q : Px → Tm → St → PRes} {g es} : ∀ (l : List Tm), (∀ t ∈ l, ∀ es st, q es t st ≠ .panic) → ∀ acc st,
    foldInfix q g es l acc st ≠ .panic
  | [], _, _, st => by simp [foldInfix]
  | t :: l, h, acc, st => bind_ne_panic (h t (by simp) es st) fun x _ => foldInfix_safe l (fun z hz => h z (by simp [hz])) _ _

theorem symInfix_safe {q : Px → Tm → St → PRes} {g es} (l : List Tm) (hl : 1 ≤ l.length) (h : ∀ t ∈ l, ∀ es st, q es t st ≠ .panic) (st) :
    symInfix q g es l st ≠ .panic := by
  cases l with
  | nil => simp at hl
  | cons t l => exact bind_ne_panic (h t (by simp) es st) fun x _ => foldInfix_safe l (fun z hz => h z (by simp [hz])) _ _

theorem pairTerms_gram {op : Op} (ts : List Tm) (hl : 2 ≤ ts.length) (h : ∀ t ∈ ts, Gram t) :
    Gram (.infx .and (pairTerms op ts)) := by
  refine .infx ?_ fun t ht => ?_
  · match ts, hl with
    | a :: b :: l, _ => simp [pairTerms]
  · obtain ⟨a, ha, b, hb, rfl⟩ := mem_pairTerms ts t ht
    refine .infx (by split <;> simp) fun t ht => ?_
    simp only [List.mem_cons, List.not_mem_nil, or_false] at ht
    rcases ht with rfl | rfl
    · exact h _ ha
    · exact h _ hb

theorem parseInfix_safe {p : Realm → Px → Tm → St → PRes} (hp : PSafe p) {E : Env} {r es op ts st} (h : Gram (.infx op ts)) :
    parseInfix p E r es op ts st ≠ .panic := by
  cases h with
  | infx hl ht =>
    cases op <;> simp only [parseInfix]
    case hardEq =>
      split
      · exact parseApp_safe hp ht
      · exact hp _ _ _ _ (pairTerms_gram ts (by simpa using hl) ht)
    case eq =>
      cases r
      · exact hp _ _ _ _ (.infx (by simpa using hl) ht)
      · exact parseApp_safe hp ht
    case neq =>
      exact parseApplication_safe hp (fun a ha => by
        simp only [Option.getD_some, List.mem_cons, List.not_mem_nil, or_false] at ha
        subst ha; exact .infx (by simpa using hl) ht)
    case iff =>
      cases r
      · exact hp _ _ _ _ (pairTerms_gram ts (by simpa using hl) ht)
      · exact parseApp_safe hp ht
    case implies => exact parseApp_safe hp ht
    case and =>
      cases r
      · exact symInfix_safe _ (by simpa using hl) (fun t h es st => hp _ _ _ _ (ht t h)) _
      · exact parseApp_safe hp ht
    case or =>
      cases r
      · exact symInfix_safe _ (by simpa using hl) (fun t h es st => hp _ _ _ _ (ht t h)) _
      · exact parseApp_safe hp ht

/-- A step is applied to all of its parameters. -/
theorem step_args {p : Realm → Px → Tm → St → PRes} {E : Env} (hD : E.Decl) {r s args st c i x as}
    (h : parseApplication p E r (.stat .step) s (some args) st = .ok x) (hc : E.steps s = some c) (hi : E.functions s = some i)
    (has : funArgs x.1 = some as) : as.length = c.params.length := by
  simp only [parseApplication] at h
  obtain ⟨j, hj, h⟩ := Out.bind_ok h
  have hj := Out.ofOption_ok hj
  simp only [parseApp] at h
  obtain ⟨y, hy, h⟩ := Out.bind_ok h
  split at h
  case isFalse => cases h
  case isTrue hk =>
    obtain ⟨u, hu, h⟩ := Out.bind_ok h
    have hu := Out.ofOption_ok hu
    have h := Out.ok.inj h
    subst h
    have hne : ∀ k : FInfo, j = k → (∀ a o, k.sig = .fixed a o → o ≠ .step) → k.isName = false → k.sig.realm = none ∨ k.sig.realm = some r →
        (∃ a o, k.sig = .fixed a o ∧ o ≠ .name) → False := by
      intro k e hs hn hr ⟨a, o, ho, hon⟩
      subst e
      have hout : appOut r j y.2.store (j.sig.inst st.store args.length).2.1 = .stat o := by
        have hfr : ¬ (r = .ev ∧ j.frealm = some .sym) := by
          intro ⟨h1, h2⟩
          simp only [FInfo.frealm, hn, Bool.false_eq_true, if_false] at h2
          rcases hr with hr | hr
          · rw [hr] at h2; cases h2
          · rw [hr, h1] at h2; cases h2
        simp only [appOut, hfr, if_false, FInfo.outSort]
        have e : (j.sig.inst st.store args.length).2.1 = .stat o := by rw [ho]; rfl
        rw [e, if_neg (by intro e; exact hon (Px.stat.inj e))]
      rw [hout] at hu
      simp only [Px.unify, Px.get] at hu
      have : eqRealm r .step o = false := by
        have h1 := hs a o ho
        cases r <;> cases o <;> simp_all [eqRealm, isEvaluatable, evaluated]
      rw [this] at hu
      cases hu
    have hjE : E.functions s = some j := by
      simp only [getFun] at hj
      split at hj
      · exfalso
        cases hj
        exact hne _ rfl (by intro a o e; cases r <;> cases e <;> simp) (by cases r <;> rfl) (by cases r <;> exact .inr rfl)
          (by cases r <;> exact ⟨_, _, rfl, by simp⟩)
      · split at hj
        · exfalso
          cases hj
          exact hne _ rfl (by intro a o e; cases r <;> cases e <;> simp) (by cases r <;> rfl) (by cases r <;> exact .inr rfl)
            (by cases r <;> exact ⟨_, _, rfl, by simp⟩)
        · split at hj
          · exfalso
            cases hj
            exact hne _ rfl (by intro a o e; cases r <;> cases e <;> simp) (by cases r <;> rfl) (by cases r <;> exact .inr rfl)
              (by cases r <;> exact ⟨_, _, rfl, by simp⟩)
          · exact hj
    rw [hi] at hjE
    cases hjE
    obtain ⟨hsig, hname⟩ := hD.step s c i hc hi
    have hb : buildApp r i y.2.store (i.sig.inst st.store args.length).2.1 y.1 = .app i.sym y.1 := by
      have hfr : i.frealm = none := by simp [FInfo.frealm, hname, hsig, FSig.realm, realmOf]
      simp [buildApp, hfr, hname]
    simp only [hb, funArgs] at has
    cases has
    rw [hsig] at hk
    simpa [FSig.arityOk] using hk

theorem parseStepMac_safe {p : Realm → Px → Tm → St → PRes} (hp : PSafe p) {E : Env} (hD : E.Decl) {r es s args st} {body : StepInfo → Tm}
    (h : ∀ a ∈ args, Gram a) (hb : ∀ c, E.steps s = some c → Gram (body c)) : parseStepMac p E r es s args body st ≠ .panic := by
  refine bind_ne_panic (parseApplication_safe hp (by simpa using h)) fun x hx => ?_
  split
  · simp
  · rename_i as has
    split
    · rename_i c i hc hi
      rw [if_pos (step_args hD hx hc hi has)]
      exact bind_ne_panic (hp _ _ _ _ (hb c hc)) fun y _ => by simp
    · simp

/-- **C52.** Elaboration never panics: on every text of the grammar, with declarations as the declaration phase
leaves them, in every realm, state and expected sort, the outcome is a formula, an error, or divergence (C53). -/
theorem C52_no_panic (E : Env) (hD : E.Decl) : ∀ (n : Nat) (r : Realm) (es : Px) (t : Tm) (st : St), Gram t →
    parse E n r es t st ≠ .panic
  | 0, _, _, _, _, _ => by simp [parse]
  | n + 1, r, es, t, st, h => by
    have hp : PSafe (parse E n) := fun r es t st => C52_no_panic E hD n r es t st
    cases h with
    | letin h1 h2 =>
      rw [parse]
      exact bind_ne_panic parseBinding_safe fun v _ => bind_ne_panic (hp _ _ _ _ h1) fun x _ => bind_ne_panic (hp _ _ _ _ h2) fun y _ => by simp
    | ite h1 h2 h3 =>
      rw [parse]
      exact bind_ne_panic (hp _ _ _ _ h1) fun x _ => bind_ne_panic (hp _ _ _ _ h2) fun y _ => bind_ne_panic (hp _ _ _ _ h3) fun z _ => by simp
    | find h1 h2 h3 =>
      rw [parse]
      exact bind_ne_panic (ofOption_ne_panic _) fun _ _ => bind_ne_panic (hp _ _ _ _ h3) fun z _ =>
        bind_ne_panic (parseBindings_safe _ _) fun v _ => bind_ne_panic (hp _ _ _ _ h1) fun x _ =>
        bind_ne_panic (hp _ _ _ _ h2) fun y _ => by simp
    | quant h1 =>
      rw [parse]
      refine bind_ne_panic (ofOption_ne_panic _) fun _ _ => bind_ne_panic (parseBindings_safe _ _) fun v _ =>
        bind_ne_panic (hp _ _ _ _ h1) fun x _ => ?_
      split <;> simp
    | cvar => rw [parse]; exact parseApplication_safe hp (fun a ha => by simp at ha)
    | app h1 => rw [parse]; exact parseApplication_safe hp (by simpa using h1)
    | infx h1 h2 => rw [parse]; exact parseInfix_safe hp (.infx h1 h2)
    | msg h1 => rw [parse]; exact parseStepMac_safe hp hD h1 fun c hc => (hD.texts _ c hc).1
    | cond h1 => rw [parse]; exact parseStepMac_safe hp hD h1 fun c hc => (hD.texts _ c hc).2
    | mac h1 =>
      rw [parse]
      simp only [parseMac]
      split
      · simp
      · rename_i c hc
        split
        · refine bind_ne_panic (parseMacArgs_safe hp _ (fun z hz => h1 _ (zip_snd_mem hz)) _) fun x _ =>
            bind_ne_panic (hp _ _ _ _ (hD.bodies _ c hc)) fun y _ => by simp
        · simp

theorem exE_decl : exE.Decl where
  step s c i h := by cases h
  texts s c h := by cases h
  bodies m c h := by
    simp only [exE] at h
    split at h
    · cases h
      exact .quant (.app fun a ha => by simp at ha; rcases ha with rfl | rfl <;> exact .cvar)
    · split at h
      · cases h; exact .app fun a ha => by simp at ha; subst ha; exact .cvar
      · cases h

example : Gram exT := .quant (.letin (.app fun a ha => by simp at ha; subst ha; exact .cvar)
  (.infx (by simp) fun a ha => by simp at ha; subst ha; exact .cvar))

/-- The restriction to the grammar is needed: an empty conjunction inside a message panics. -/
theorem C52_needs_grammar (E : Env) (es : Px) (st : St) : parse E 1 .sym es (.infx .and []) st = .panic := rfl

end Prs
end CV
