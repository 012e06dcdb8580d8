/-
Acceptance: well-sorted terms are elaborated without error.
-/
import Verif.ElabWs
import Verif.ParserTotal
import Verif.ParserMain

set_option linter.unusedSimpArgs false

namespace CV
namespace Prs

/-! ## Sorts and cells -/

theorem same_iff (r : Realm) (a b : Srt) : Same r a b ↔ eqRealm r a b = true := by
  cases r
  · simp [Same, eqRealm]
  · cases a <;> cases b <;> simp [Same, Same.val, eqRealm, isEvaluatable, evaluated]

theorem Same.rfl' {r a} : Same r a a := by cases r <;> rfl
theorem Same.symm {r a b} (h : Same r a b) : Same r b a := by cases r <;> exact Eq.symm h
theorem Same.trans {r a b c} (h : Same r a b) (k : Same r b c) : Same r a c := by cases r <;> exact Eq.trans h k

/-- What elaboration with the expected sort `es` does to the cells. -/
structure Grow (es : Px) (a b : Store) : Prop where
  len : a.length ≤ b.length
  keep : ∀ n, n < a.length → ∀ x, (Px.var n).get a = some x → (Px.var n).get b = some x
  others : ∀ n, n < a.length → .var n ≠ es → (Px.var n).get b = (Px.var n).get a

theorem Grow.refl (es a) : Grow es a a := ⟨Nat.le_refl _, fun _ _ _ h => h, fun _ _ _ => rfl⟩
theorem Grow.trans {es a b c} (h : Grow es a b) (k : Grow es b c) : Grow es a c :=
  ⟨Nat.le_trans h.len k.len, fun n hn x hx => k.keep n (Nat.lt_of_lt_of_le hn h.len) x (h.keep n hn x hx),
    fun n hn hne => (k.others n (Nat.lt_of_lt_of_le hn h.len) hne).trans (h.others n hn hne)⟩
theorem Grow.weaken {s es a b} (h : Grow (.stat s) a b) : Grow es a b :=
  ⟨h.len, h.keep, fun n hn _ => h.others n hn (by simp)⟩

theorem get_some_lt {a : Store} {n : Nat} {x : Srt} (h : (Px.var n).get a = some x) : n < a.length := by
  by_contra hn
  simp only [Px.get] at h
  rw [List.getElem?_eq_none (by omega)] at h
  simp at h

theorem Grow.get {es a b} (h : Grow es a b) {p : Px} {x : Srt} (k : p.get a = some x) : p.get b = some x := by
  cases p with
  | stat s => exact k
  | var n => exact h.keep n (get_some_lt k) x k

/-- The growth seen from before the cell `es` was made. -/
theorem Grow.fresh {n a b c} (h : Grow (.var n) b c) (hn : a.length ≤ n) (k : ∀ es, Grow es a b) (es : Px) : Grow es a c := by
  have hb := k (.stat .bool)
  refine Grow.weaken (s := .bool) ⟨Nat.le_trans hb.len h.len, fun m hm x hx => h.keep m (Nat.lt_of_lt_of_le hm hb.len) x (hb.keep m hm x hx),
    fun m hm _ => ?_⟩
  rw [h.others m (Nat.lt_of_lt_of_le hm hb.len) (by simp; omega), hb.others m hm (by simp)]

theorem Grow.append (es a l) : Grow es a (a ++ l) := by
  refine ⟨by simp, fun n hn x hx => ?_, fun n hn _ => ?_⟩
  · simpa [Px.get, List.getElem?_append_left hn] using hx
  · simp [Px.get, List.getElem?_append_left hn]

/-- The expected sort is `s`, or not known yet; in the symbolic realm it is always known. -/
def Takes (a : Store) (r : Realm) (es : Px) (s : Srt) : Prop :=
  (∃ x, es.get a = some x ∧ Same r x s) ∨ (r = .ev ∧ es.get a = none ∧ ∃ n, es = .var n ∧ n < a.length)

theorem Takes.stat {a r s s'} (h : Same r s s') : Takes a r (.stat s) s' := .inl ⟨s, rfl, h⟩

theorem Takes.same {a r es s s'} (h : Takes a r es s) (k : Same r s s') : Takes a r es s' := by
  rcases h with ⟨x, h1, h2⟩ | h
  · exact .inl ⟨x, h1, h2.trans k⟩
  · exact .inr h

theorem Takes.sym {a es s} (h : Takes a .sym es s) : es.get a = some s := by
  rcases h with ⟨x, h1, h2⟩ | ⟨h, _⟩
  · cases h2; exact h1
  · cases h

/-- The expected sort is now known. -/
def Known (a : Store) (r : Realm) (es : Px) (s : Srt) : Prop := r = .ev → ∃ x, es.get a = some x ∧ Same r x s

theorem grow_set {a : Store} {n : Nat} (hn : n < a.length) (h0 : (Px.var n).get a = none) (s : Srt) :
    Grow (.var n) a (a.set n (some s)) ∧ (Px.var n).get (a.set n (some s)) = some s := by
  refine ⟨⟨by simp, fun m hm x hx => ?_, fun m hm hne => ?_⟩, by simp [Px.get, hn]⟩
  · have hmn : n ≠ m := by intro e; subst e; rw [h0] at hx; cases hx
    simpa [Px.get, List.getElem?_set_ne hmn] using hx
  · have hmn : n ≠ m := by intro e; subst e; exact hne rfl
    simp [Px.get, List.getElem?_set_ne hmn]

theorem expects_ok {a r es s s'} (h : Takes a r es s) (k : Same r s s') :
    ∃ b, es.expects a r s' = some b ∧ Grow es a b ∧ Known b r es s := by
  rcases h with ⟨x, h1, h2⟩ | ⟨rfl, h1, n, rfl, hn⟩
  · refine ⟨a, ?_, .refl _ _, fun _ => ⟨x, h1, h2⟩⟩
    simp only [Px.expects, h1]
    rw [if_pos ((same_iff r x s').1 (h2.trans k))]
  · obtain ⟨g, e⟩ := grow_set hn h1 s'
    refine ⟨a.set n (some s'), ?_, g, fun _ => ⟨s', e, k.symm⟩⟩
    simp only [Px.expects, h1, Px.set]
    rw [if_pos ⟨hn, by simpa [Px.get] using h1⟩]

theorem unify_ok {a r es s s'} (h : Takes a r es s) (k : Same r s s') :
    ∃ u, Px.unify a r es (.stat s') = some u ∧ Grow es a u.2 ∧ Known u.2 r es s := by
  rcases h with ⟨x, h1, h2⟩ | ⟨rfl, h1, n, rfl, hn⟩
  · refine ⟨(x, a), ?_, .refl _ _, fun _ => ⟨x, h1, h2⟩⟩
    simp only [Px.unify, h1]
    simp only [Px.get]
    rw [if_pos ((same_iff r x s').1 (h2.trans k))]
  · obtain ⟨g, e⟩ := grow_set hn h1 s'
    refine ⟨(s', a.set n (some s')), ?_, g, fun _ => ⟨s', e, k.symm⟩⟩
    simp only [Px.unify, h1]
    simp only [Px.get, Px.set]
    rw [if_pos ⟨hn, by simpa [Px.get] using h1⟩]
    rfl

theorem Takes.grow {a b r es s} (h : Takes a r es s) (g : ∀ es, Grow es a b) : Takes b r es s := by
  rcases h with ⟨x, h1, h2⟩ | ⟨h0, h1, n, rfl, hn⟩
  · exact .inl ⟨x, (g es).get h1, h2⟩
  · exact .inr ⟨h0, by rw [(g (.stat .bool)).others n hn (by simp), h1], n, rfl, Nat.lt_of_lt_of_le hn (g (.stat .bool)).len⟩

theorem Takes.known {a b r es s} (h : Takes a r es s) (g : Grow es a b) (k : Known b r es s) : Takes b r es s := by
  cases r with
  | sym => exact .inl ⟨s, g.get h.sym, rfl⟩
  | ev => exact .inl (k rfl)

/-! ## Scopes -/

/-- What the names in scope are bound to in the list of bound variables, the others being in `D`. -/
structure Seen (Γ : List (String × Srt)) (D : List String) (bv : List (String × Var)) : Prop where
  live : ∀ x s, (x, s) ∈ Γ → ∃ v, bv.find? (fun b => b.1 == x) = some (x, v) ∧ v.sort = s
  dead : ∀ x, x ∉ names Γ → x ∉ D → x ∉ bv.map (·.1)

theorem Seen.mono {Γ D D' bv} (h : Seen Γ D bv) (hd : ∀ x ∈ D, x ∈ D') : Seen Γ D' bv :=
  ⟨h.live, fun x h1 h2 => h.dead x h1 fun k => h2 (hd x k)⟩

theorem Seen.extend {Γ D bv lk} (h : Seen Γ D bv) : Seen Γ (lk.map (·.1) ++ D) (bv ++ lk) where
  live x s hx := by
    obtain ⟨v, h1, h2⟩ := h.live x s hx
    exact ⟨v, by rw [List.find?_append, h1]; rfl, h2⟩
  dead x h1 h2 := by
    rw [List.map_append, List.mem_append, not_or]
    exact ⟨h.dead x h1 fun k => h2 (List.mem_append_right _ k), fun k => h2 (List.mem_append_left _ k)⟩

theorem Seen.push {Γ D bv x} {v : Var} (h : Seen Γ D bv) (hx : x ∉ bv.map (·.1)) : Seen ((x, v.sort) :: Γ) D (bv ++ [(x, v)]) where
  live y s hy := by
    rcases List.mem_cons.1 hy with e | hy
    · cases e
      exact ⟨v, by rw [List.find?_append, find_none hx]; simp, rfl⟩
    · obtain ⟨w, h1, h2⟩ := h.live y s hy
      exact ⟨w, by rw [List.find?_append, h1]; rfl, h2⟩
  dead y h1 h2 := by
    simp only [names, List.map_cons, List.mem_cons, not_or] at h1
    simp only [List.map_append, List.mem_append, List.map_cons, List.map_nil, List.mem_singleton, not_or]
    exact ⟨h.dead y h1.2 h2, h1.1⟩

theorem Seen.perm {Γ Γ' D bv} (h : Seen Γ D bv) (hp : ∀ p, p ∈ Γ ↔ p ∈ Γ') : Seen Γ' D bv where
  live x s hx := h.live x s ((hp _).2 hx)
  dead x h1 h2 := h.dead x (fun k => h1 (by
    obtain ⟨p, hp', e⟩ := List.mem_map.1 k
    exact List.mem_map.2 ⟨p, (hp _).1 hp', e⟩)) h2

/-- Parameters numbered from some position. -/
theorem seen_params : ∀ (ps : List (String × Srt)) (k : Nat), (names ps).Nodup →
    Seen ps [] ((ps.zipIdx k).map fun p => (p.1.1, (⟨p.2, p.1.2⟩ : Var)))
  | [], _, _ => ⟨fun _ _ h => (List.not_mem_nil h).elim, fun _ _ _ => by simp⟩
  | p :: ps, k, h => by
    simp only [names, List.map_cons, List.nodup_cons] at h
    have ih := seen_params ps (k + 1) h.2
    refine ⟨fun x s hx => ?_, fun x h1 h2 => ?_⟩
    · rcases List.mem_cons.1 hx with rfl | hx
      · exact ⟨⟨k, s⟩, by simp [List.zipIdx_cons], rfl⟩
      · obtain ⟨v, h1, h2⟩ := ih.live x s hx
        have hne : (p.1 == x) = false := by
          simp only [beq_eq_false_iff_ne]
          intro e
          exact h.1 (List.mem_map.2 ⟨(x, s), hx, by simp [e]⟩)
        exact ⟨v, by simp only [List.zipIdx_cons, List.map_cons, List.find?_cons, hne]; exact h1, h2⟩
    · simp only [names, List.map_cons, List.mem_cons, not_or] at h1
      have := ih.dead x h1.2 h2
      simp only [List.zipIdx_cons, List.map_cons, List.mem_cons, not_or]
      exact ⟨h1.1, this⟩

theorem seen_numbered {ps : List (String × Srt)} (h : (names ps).Nodup) : Seen ps [] (numbered ps) := seen_params ps 0 h

theorem seen_withInput {ps : List (String × Srt)} (h : (names ps ++ ["in"]).Nodup) :
    Seen (ps ++ [("in", .message)]) [] (withInput ps) := by
  have : withInput ps = numbered (ps ++ [("in", .message)]) := by
    simp [withInput, numbered, List.zipIdx_append]
  rw [this]
  exact seen_numbered (by simpa [names] using h)

/-! ## Outcomes -/

/-- What a successful elaboration does to the state. -/
structure Post (r : Realm) (es : Px) (lk : List String) (s : Srt) (st st' : St) : Prop where
  bv : ∃ l, st'.bvars = st.bvars ++ l ∧ l.map (·.1) = lk
  grow : Grow es st.store st'.store
  known : Known st'.store r es s

theorem Post.seen {r es lk s st st' Γ D} (h : Post r es lk s st st') (k : Seen Γ D st.bvars) : Seen Γ (lk ++ D) st'.bvars := by
  obtain ⟨l, e, rfl⟩ := h.bv
  rw [e]
  exact k.extend

/-- From `N` on, elaboration accepts the term. -/
def Accepts (E : Env) (r : Realm) (Γ : List (String × Srt)) (D : List String) (t : Tm) (s : Srt) (N : Nat) : Prop :=
  ∀ n, N ≤ n → ∀ es st, Seen Γ D st.bvars → Takes st.store r es s →
    ∃ φ st', parse E n r es t st = .ok (φ, st') ∧ Post r es (leak t) s st st'

/-- The terms are elaborated one after the other, with the given expected sorts. -/
inductive Each (p : Realm → Px → Tm → St → PRes) : List (Realm × Px × Tm) → St → List (Fm PF) → St → Prop
  | nil {st} : Each p [] st [] st
  | cons {r es t l st x st' xs st''} : p r es t st = .ok (x, st') → Each p l st' xs st'' →
      Each p ((r, es, t) :: l) st (x :: xs) st''

/-- What this does to the state. -/
structure PostL (lk : List String) (st st' : St) : Prop where
  bv : ∃ l, st'.bvars = st.bvars ++ l ∧ l.map (·.1) = lk
  grow : ∀ es, Grow es st.store st'.store

theorem PostL.seen {lk st st' Γ D} (h : PostL lk st st') (k : Seen Γ D st.bvars) : Seen Γ (lk ++ D) st'.bvars := by
  obtain ⟨l, e, rfl⟩ := h.bv
  rw [e]
  exact k.extend

def AcceptsL (E : Env) (Γ : List (String × Srt)) (D : List String) (l : List (Realm × Srt × Tm)) (N : Nat) : Prop :=
  ∀ n, N ≤ n → ∀ (e : Srt → Px) st, Seen Γ D st.bvars → (∀ z ∈ l, (e z.2.1).get st.store = some z.2.1) →
    ∃ xs st', Each (parse E n) (l.map fun z => (z.1, e z.2.1, z.2.2)) st xs st' ∧ PostL (leaks (l.map (·.2.2))) st st'

theorem grow_all {es : Px} {a b : Store} {x : Srt} (h : es.get a = some x) (g : Grow es a b) : ∀ es', Grow es' a b := fun es' =>
  ⟨g.len, g.keep, fun n hn _ => by
    by_cases e : Px.var n = es
    · rw [e, h, g.get h]
    · exact g.others n hn e⟩

theorem acceptsL_cons {E Γ D r s t s' l N M} (h : Accepts E r Γ D t s' N) (hs : Same r s s')
    (hl : AcceptsL E Γ (leak t ++ D) l M) : AcceptsL E Γ D ((r, s, t) :: l) (max N M) := by
  intro n hn e st hS hg
  have h0 := hg (r, s, t) (by simp)
  obtain ⟨x, st1, h1, p1⟩ := h n (by omega) (e s) st hS (.inl ⟨s, h0, hs⟩)
  have g1 := grow_all h0 p1.grow
  obtain ⟨xs, st2, h2, p2⟩ := hl n (by omega) e st1 (p1.seen hS) (fun z hz => (g1 (.stat .bool)).get (hg z (by simp [hz])))
  refine ⟨x :: xs, st2, .cons h1 h2, ?_, fun es => (g1 es).trans (p2.grow es)⟩
  obtain ⟨l1, e1, k1⟩ := p1.bv
  obtain ⟨l2, e2, k2⟩ := p2.bv
  exact ⟨l1 ++ l2, by rw [e2, e1, List.append_assoc], by simp [leaks, k1, k2]⟩

theorem each_len {p l st xs st'} (h : Each p l st xs st') : xs.length = l.length := by
  induction h with
  | nil => rfl
  | cons _ _ ih => simp [ih]

theorem each_list {p : Realm → Px → Tm → St → PRes} {r : Realm} : ∀ {l : List (Px × Tm)} {st xs st'},
    Each p (l.map fun z => (r, z.1, z.2)) st xs st' → parseList (p r) l st = .ok (xs, st')
  | [], _, _, _, h => by cases h; rfl
  | (es, t) :: l, st, _, _, h => by
    cases h with
    | cons h1 h2 => simp only [parseList, h1, Out.bind, each_list h2]

theorem each_mac {p : Realm → Px → Tm → St → PRes} {r : Realm} : ∀ {l : List ((String × Srt) × Tm)} {st xs st'},
    Each p (l.map fun z => ((realmOf z.1.2).getD r, .stat z.1.2, z.2)) st xs st' → parseMacArgs p r l st = .ok (xs, st')
  | [], _, _, _, h => by cases h; rfl
  | (b, t) :: l, st, _, _, h => by
    cases h with
    | cons h1 h2 => simp only [parseMacArgs, h1, Out.bind, each_mac h2]

theorem each_fold {p : Realm → Px → Tm → St → PRes} {r : Realm} {g : PF} {es : Px} : ∀ {l : List Tm} {st xs st'} (acc : Fm PF),
    Each p (l.map fun t => (r, es, t)) st xs st' → ∃ φ, foldInfix (p r) g es l acc st = .ok (φ, st')
  | [], _, _, _, acc, h => by cases h; exact ⟨acc, rfl⟩
  | t :: l, st, _, _, acc, h => by
    cases h with
    | @cons _ _ _ _ _ x st1 _ _ h1 h2 =>
      obtain ⟨φ, e⟩ := each_fold (g := g) (.app g [acc, x]) h2
      exact ⟨φ, by simp only [foldInfix, h1, Out.bind, e]⟩

/-! ## The parts of the elaborator -/

theorem app_ok {p : Realm → Px → Tm → St → PRes} {r : Realm} {es : Px} {i : FInfo} {a : List Srt} {o : Srt} {args : List Tm}
    {st st' : St} {xs : List (Fm PF)} {lk : List String} (hi : i.sig = .fixed a o) (hl : args.length = a.length)
    (h : Each p ((expect ((realmOf o).getD r) a args).map fun z => (z.1, .stat z.2.1, z.2.2)) st xs st')
    (hp : PostL lk st st') (hf : Takes st.store r es (outOf o)) :
    ∃ st'', parseApp p r es i args st = .ok (buildApp r i st'.store (.stat o) xs, st'') ∧ Post r es lk (outOf o) st st'' := by
  have hx : xs.length = a.length := by
    rw [each_len h]; simp [expect, hl]
  have h' : parseList (p ((realmOf o).getD r)) ((a.map Px.stat).zip args) st = .ok (xs, st') := by
    apply each_list
    have e : ((a.map Px.stat).zip args).map (fun z => ((realmOf o).getD r, z.1, z.2)) =
        (expect ((realmOf o).getD r) a args).map fun z => (z.1, .stat z.2.1, z.2.2) := by
      simp [expect, List.zip_map_left, Function.comp_def]
    rw [e]; exact h
  have hO : ∃ s', appOut r i st'.store (.stat o) = .stat s' ∧ Same r (outOf o) s' := by
    have e : i.outSort (.stat o) = .stat (outOf o) := by
      simp only [FInfo.outSort, outOf]
      by_cases ho : o = .name <;> simp [ho]
    simp only [appOut, e]
    split
    · rename_i hr
      obtain ⟨rfl, _⟩ := hr
      simp only [Px.get, Option.bind_some]
      split
      · rename_i e' he
        refine ⟨e', rfl, ?_⟩
        revert he
        cases outOf o <;> simp [evaluated, Same, Same.val] <;> rintro rfl <;> rfl
      · exact ⟨_, rfl, Same.rfl'⟩
    · exact ⟨_, rfl, Same.rfl'⟩
  obtain ⟨s', e1, e2⟩ := hO
  obtain ⟨u, hu, gu, ku⟩ := unify_ok (hf.grow hp.grow) e2
  refine ⟨{ st' with store := u.2 }, ?_, hp.bv, (hp.grow es).trans gu, ku⟩
  have hst : ({ st with store := st.store } : St) = st := rfl
  simp only [parseApp, hi, FSig.inst, FSig.realm, hst, h', Out.bind, FSig.arityOk, hx, beq_self_eq_true, if_true, e1, hu, Out.ofOption]

theorem binding_ok {E Γ D b so} {st : St} (hS : Seen Γ D st.bvars) (hf : NewName E Γ D b.1) (hs : E.sorts b.2 = some so) :
    parseBinding E b st = .ok (⟨st.bvars.length, so⟩, { st with bvars := st.bvars ++ [(b.1, ⟨st.bvars.length, so⟩)] }) := by
  have h1 := hS.dead _ hf.scope hf.dead
  have h2 : (st.bvars.map (·.1)).contains b.1 = false := by simpa [List.contains_eq_mem] using h1
  have h3 : (((E.functions b.1).isSome || (E.steps b.1).isSome || (st.bvars.map (·.1)).contains b.1) && !E.shadowing) = false := by
    rw [h2]
    rcases hf.decl with h | ⟨h, k⟩
    · simp [h]
    · simp [h, k]
  simp only [parseBinding, h3, hs]
  rfl

theorem bindings_ok {E : Env} : ∀ {vs : List Bnd} {Δ Γ : List (String × Srt)} {D : List String} {st : St}, Seen Γ D st.bvars →
    Block E Γ D vs Δ → ∃ v l, parseBindings E vs st = .ok (v, { st with bvars := st.bvars ++ l }) ∧ Seen (Δ ++ Γ) D (st.bvars ++ l)
  | [], Δ, Γ, D, st, hS, h => by
    have := h.sorts
    cases this
    exact ⟨[], [], by simp [parseBindings], by simpa using hS⟩
  | b :: vs, Δ, Γ, D, st, hS, h => by
    have hh := h.sorts
    cases hh with
    | @cons _ d _ Δ' h1 h2 =>
      obtain ⟨x, so⟩ := d
      obtain ⟨rfl, hs⟩ := h1
      have hn := h.nodup
      simp only [names, List.map_cons, List.nodup_cons] at hn
      have hfx := h.fresh b.1 (by simp [names])
      have e := binding_ok hS hfx hs
      have hx := hS.dead _ hfx.scope hfx.dead
      have hS' := Seen.push (v := ⟨st.bvars.length, so⟩) hS hx
      obtain ⟨v, l, e2, hS2⟩ := bindings_ok (st := { st with bvars := st.bvars ++ [(b.1, ⟨st.bvars.length, so⟩)] })
        (Γ := (b.1, so) :: Γ) (D := D) hS' ⟨h2, hn.2, fun y hy => by
          have := h.fresh y (by simp only [names, List.map_cons, List.mem_cons]; exact .inr hy)
          refine ⟨?_, this.dead, this.decl⟩
          simp only [names, List.map_cons, List.mem_cons, not_or]
          refine ⟨?_, this.scope⟩
          rintro rfl
          exact hn.1 hy⟩
      refine ⟨⟨st.bvars.length, so⟩ :: v, (b.1, ⟨st.bvars.length, so⟩) :: l, ?_, ?_⟩
      · simp only [parseBindings, e, Out.bind, e2, List.append_assoc, List.singleton_append]
      · have : Seen (Δ' ++ (b.1, so) :: Γ) D (st.bvars ++ (b.1, ⟨st.bvars.length, so⟩) :: l) := by
          simpa [List.append_assoc] using hS2
        exact this.perm fun p => by simp [or_left_comm, or_assoc]

theorem seen_take {bv l : List (String × Var)} : (bv ++ l).take bv.length = bv := by simp

/-- Two operands that are compared: each is read with a cell of its own. -/
theorem eq2_ok {E : Env} {n : Nat} {Γ D a b sa sb N M} {es : Px} {st : St} (ha : Accepts E .ev Γ D a sa N)
    (hb : Accepts E .ev Γ (leak a ++ D) b sb M) (hN : N ≤ n) (hM : M ≤ n) (hS : Seen Γ D st.bvars)
    (hf : Takes st.store .ev es .bool) :
    ∃ φ st', parseApp (parse E n) .ev es eqInfo [a, b] st = .ok (φ, st') ∧ Post .ev es (leaks [a, b]) .bool st st' := by
  have g0 : ∀ es, Grow es st.store (st.store ++ [none, none]) := fun es => Grow.append _ _ _
  obtain ⟨x, st1, h1, p1⟩ := ha n hN (.var st.store.length) { st with store := st.store ++ [none, none] } hS
    (.inr ⟨rfl, by simp [Px.get], _, rfl, by simp⟩)
  have hc : (Px.var (st.store.length + 1)).get st1.store = none := by
    rw [p1.grow.others _ (by simp) (by simp)]
    simp [Px.get, List.getElem?_append]
  have hlen : st.store.length + 1 < st1.store.length := by
    have := p1.grow.len
    simp at this
    omega
  obtain ⟨y, st2, h2, p2⟩ := hb n hM (.var (st.store.length + 1)) st1 (p1.seen hS) (.inr ⟨rfl, hc, _, rfl, hlen⟩)
  have g1 := Grow.fresh p1.grow (a := st.store) (Nat.le_refl _) g0
  have g2 := Grow.fresh p2.grow (a := st.store) (Nat.le_succ _) g1
  obtain ⟨u, hu, gu, ku⟩ := unify_ok (hf.grow g2) (s' := .bool) Same.rfl'
  have hL : parseList (parse E n .ev) [(.var st.store.length, a), (.var (st.store.length + 1), b)]
      { st with store := st.store ++ [none, none] } = .ok ([x, y], st2) := by
    simp only [parseList, h1, Out.bind, h2]
  refine ⟨buildApp .ev eqInfo st2.store (.stat .bool) [x, y], { st2 with store := u.2 }, ?_, ?_, (g2 es).trans gu, ku⟩
  · have hi : eqInfo.sig.inst st.store [a, b].length =
      ([.var st.store.length, .var (st.store.length + 1)], .stat .bool, st.store ++ [none, none]) := rfl
    have ho : appOut .ev eqInfo st2.store (.stat .bool) = .stat .bool := by
      simp [appOut, eqInfo, FInfo.outSort, FInfo.frealm, FSig.realm]
    simp only [parseApp, hi]
    simp only [eqInfo, FSig.realm, Option.getD_some, List.zip_cons_cons, List.zip_nil_right, hL, Out.bind, FSig.arityOk]
    simp only [eqInfo] at ho
    simp [ho, hu, Out.ofOption]
  · obtain ⟨l1, e1, k1⟩ := p1.bv
    obtain ⟨l2, e2, k2⟩ := p2.bv
    exact ⟨l1 ++ l2, by rw [e2, e1, List.append_assoc], by simp [leaks, k1, k2]⟩

theorem expect_leaks {r : Realm} : ∀ {ss : List Srt} {ts : List Tm}, ts.length = ss.length →
    leaks ((expect r ss ts).map (·.2.2)) = leaks ts := by
  intro ss ts h
  have : (expect r ss ts).map (·.2.2) = ts := by
    simp only [expect, List.map_map, Function.comp_def]
    exact List.map_snd_zip (by omega)
  rw [this]

/-- An application of a function with a fixed signature. -/
theorem fixed_ok {E : Env} {n N : Nat} {Γ D r a o i args} {es : Px} {st : St} (hi : i.sig = .fixed a o)
    (hl : args.length = a.length) (h : AcceptsL E Γ D (expect ((realmOf o).getD r) a args) N) (hN : N ≤ n)
    (hS : Seen Γ D st.bvars) (hf : Takes st.store r es (outOf o)) :
    ∃ φ st', parseApp (parse E n) r es i args st = .ok (φ, st') ∧ Post r es (leaks args) (outOf o) st st' ∧
      (o = .step → i.isName = false → ∃ as, as.length = a.length ∧ φ = .app i.sym as) := by
  obtain ⟨xs, st1, h1, p1⟩ := h n hN .stat st hS (fun z _ => rfl)
  rw [expect_leaks hl] at p1
  obtain ⟨st2, h2, p2⟩ := app_ok hi hl h1 p1 hf
  refine ⟨_, st2, h2, p2, ?_⟩
  rintro rfl hn
  refine ⟨xs, ?_, ?_⟩
  · rw [each_len h1]; simp [expect, hl]
  · simp [buildApp, hn, FInfo.frealm, hi, FSig.realm, realmOf]

/-- The message or the condition of a step. -/
theorem step_ok {E : Env} {n N M : Nat} {Γ D r f i} {c : StepInfo} {args s} {es : Px} {st : St} (body : StepInfo → Tm)
    (hf : funOf E r f = some i) (hE : E.functions f = some i) (hs : E.steps f = some c)
    (hi : i.sig = .fixed (c.params.map (·.2)) .step) (hn : i.isName = false) (hl : args.length = c.params.length)
    (ha : AcceptsL E Γ D (expect r (c.params.map (·.2)) args) N) (hd : (names c.params ++ ["in"]).Nodup)
    (hb : Accepts E r (c.params ++ [("in", .message)]) [] (body c) s M) (hN : N ≤ n) (hM : M ≤ n)
    (hS : Seen Γ D st.bvars) (ht : Takes st.store r es s) :
    ∃ φ st', parseStepMac (parse E n) E r es f args body st = .ok (φ, st') ∧ Post r es (leaks args) s st st' := by
  obtain ⟨φ, st1, h1, p1, hφ⟩ := fixed_ok (es := .stat .step) (r := r) hi (by simpa using hl) (by simpa [realmOf] using ha) hN hS
    (Takes.stat Same.rfl')
  obtain ⟨as, hal, rfl⟩ := hφ rfl hn
  have g1 := grow_all (es := .stat .step) rfl p1.grow
  obtain ⟨ψ, st2, h2, p2⟩ := hb n hM es { st1 with bvars := withInput c.params } (seen_withInput hd) (ht.grow g1)
  refine ⟨Subst.apply (stepSubst i.sym as).get ψ, { st2 with bvars := st1.bvars }, ?_, p1.bv, (g1 es).trans p2.grow, p2.known⟩
  rw [funOf_eq] at hf
  simp only [parseStepMac, parseApplication, hf, Out.ofOption, Out.bind, h1, funArgs, hs, hE]
  rw [if_pos (by simpa using hal), h2]

theorem not_sig (E : Env) (r : Realm) : ∃ i, getFun E r "not" = some i ∧ i.sig = .fixed [propSort r] (propSort r) := by
  cases r <;> exact ⟨_, rfl, rfl⟩

theorem outOf_prop (r : Realm) : outOf (propSort r) = propSort r := by cases r <;> rfl
theorem realm_prop (r : Realm) : (realmOf (propSort r)).getD r = r := by cases r <;> rfl

/-- Negation. -/
theorem not_ok {E : Env} {n N : Nat} {Γ D r t s} {es : Px} {st : St} (h : Accepts E r Γ D t s N) (hs : Same r (propSort r) s)
    (hN : N ≤ n) (hS : Seen Γ D st.bvars) (hf : Takes st.store r es s) :
    ∃ φ st', parseApplication (parse E n) E r es "not" (some [t]) st = .ok (φ, st') ∧ Post r es (leaks [t]) s st st' := by
  obtain ⟨i, hi, hsig⟩ := not_sig E r
  have hL : AcceptsL E Γ D (expect ((realmOf (propSort r)).getD r) [propSort r] [t]) N := by
    rw [realm_prop]
    rw [← Nat.max_zero N]
    exact acceptsL_cons h hs (fun _ _ _ st _ _ => ⟨[], st, .nil, ⟨[], by simp, by simp [leaks]⟩, fun es => .refl _ _⟩)
  obtain ⟨φ, st', h1, p1, _⟩ := fixed_ok (es := es) (st := st) hsig rfl hL hN hS (by rw [outOf_prop]; exact hf.same hs.symm)
  refine ⟨φ, st', ?_, p1.bv, p1.grow, ?_⟩
  · simp only [parseApplication, hi, Out.ofOption, Out.bind]
    exact h1
  · intro hr
    obtain ⟨x, e, k⟩ := p1.known hr
    rw [outOf_prop] at k
    exact ⟨x, e, k.trans hs⟩

/-- The sort of an equality. -/
theorem eq_sort {E r Γ D ts s} (h : Ws E r Γ D (.infx .eq ts) s) : s = propSort r := by
  cases h with
  | eqEv => rfl
  | eqSym => rfl
  | eqChain => rfl
  | conn h => rcases h with h | h <;> cases h

theorem conn_ok {E : Env} {n N : Nat} {Γ D r} {op : Op} {ts : List Tm} {es : Px} {st : St} (ho : op = .and ∨ op = .or) (hne : ts ≠ [])
    (h : AcceptsL E Γ D (ts.map fun t => (r, propSort r, t)) N) (hN : N ≤ n) (hS : Seen Γ D st.bvars)
    (hf : Takes st.store r es (propSort r)) :
    ∃ φ st', parseInfix (parse E n) E r es op ts st = .ok (φ, st') ∧ Post r es (leaks ts) (propSort r) st st' := by
  have hlk : leaks ((ts.map fun t => (r, propSort r, t)).map (·.2.2)) = leaks ts := by simp [Function.comp_def]
  cases r with
  | sym =>
    have hes : es.get st.store = some .condition := hf.sym
    obtain ⟨xs, st1, h1, p1⟩ := h n hN (fun _ => es) st hS (fun z hz => by
      obtain ⟨t, _, rfl⟩ := List.mem_map.1 hz
      exact hes)
    rw [hlk] at p1
    have key : ∀ g, ∃ φ, symInfix (parse E n .sym) g es ts st = .ok (φ, st1) := by
      intro g
      cases ts with
      | nil => exact absurd rfl hne
      | cons t ts =>
        cases h1 with
        | @cons _ _ _ _ _ x st2 xs' _ h1 h2 =>
          have h2' : Each (parse E n) (ts.map fun t => (Realm.sym, es, t)) st2 xs' st1 := by
            simpa [Function.comp_def] using h2
          obtain ⟨φ, e⟩ := each_fold (g := g) x h2'
          exact ⟨φ, by simp only [symInfix, h1, Out.bind, e]⟩
    rcases ho with rfl | rfl
    · obtain ⟨φ, e⟩ := key .taAnd
      exact ⟨φ, st1, e, p1.bv, p1.grow es, fun h => by cases h⟩
    · obtain ⟨φ, e⟩ := key .taOr
      exact ⟨φ, st1, e, p1.bv, p1.grow es, fun h => by cases h⟩
  | ev =>
    obtain ⟨xs, st1, h1, p1⟩ := h n hN .stat st hS (fun z _ => rfl)
    rw [hlk] at p1
    have hL : parseList (parse E n .ev) ((List.replicate ts.length (Px.stat .bool)).zip ts) st = .ok (xs, st1) := by
      apply each_list
      have e : ((List.replicate ts.length (Px.stat .bool)).zip ts).map (fun z => (Realm.ev, z.1, z.2)) =
          (ts.map fun t => (Realm.ev, propSort .ev, t)).map fun z => (z.1, .stat z.2.1, z.2.2) := by
        clear * -
        induction ts with
        | nil => rfl
        | cons t ts ih => simp only [List.length_cons, List.replicate_succ, List.zip_cons_cons, List.map_cons, ih]; rfl
      rw [e]; exact h1
    obtain ⟨u, hu, gu, ku⟩ := unify_ok (hf.grow p1.grow) (s' := .bool) Same.rfl'
    have key : ∀ g, ∃ φ, parseApp (parse E n) .ev es ⟨g, .nary, false⟩ ts st = .ok (φ, { st1 with store := u.2 }) := by
      intro g
      have hst : ({ st with store := st.store } : St) = st := rfl
      have ho : appOut .ev ⟨g, .nary, false⟩ st1.store (.stat .bool) = .stat .bool := by
        simp [appOut, FInfo.outSort, FInfo.frealm, FSig.realm]
      simp only [parseApp, FSig.inst, FSig.realm, Option.getD_some, hst, hL, Out.bind, FSig.arityOk, if_true, ho, hu, Out.ofOption]
      exact ⟨_, rfl⟩
    rcases ho with rfl | rfl
    · obtain ⟨φ, e⟩ := key .and
      exact ⟨φ, _, e, p1.bv, (p1.grow es).trans gu, ku⟩
    · obtain ⟨φ, e⟩ := key .or
      exact ⟨φ, _, e, p1.bv, (p1.grow es).trans gu, ku⟩

theorem leaks_none : ∀ {ts : List Tm}, (∀ t ∈ ts, leak t = []) → leaks ts = []
  | [], _ => rfl
  | t :: ts, h => by simp [leaks, h t (by simp), leaks_none (ts := ts) fun t ht => h t (by simp [ht])]

theorem hardEq_accepts {E : Env} {N : Nat} {r Γ D a b} (h : AcceptsL E Γ D [(.sym, .message, a), (.sym, .message, b)] N) :
    Accepts E r Γ D (.infx .hardEq [a, b]) .condition (N + 1) := by
  intro n hn es st hS hf
  obtain ⟨m, rfl⟩ : ∃ m, n = m + 1 := ⟨n - 1, by omega⟩
  obtain ⟨φ, st', e, p, _⟩ := fixed_ok (n := m) (es := es) (i := taEqInfo) (a := [.message, .message]) (o := .condition)
    (args := [a, b]) rfl rfl (r := r) h (by omega) hS hf
  simp only [parse, parseInfix]
  rw [if_pos (show [a, b].length = 2 from rfl)]
  exact ⟨φ, st', e, p⟩

theorem acceptsL_nil {E Γ D N} : AcceptsL E Γ D [] N :=
  fun _ _ _ st _ _ => ⟨[], st, .nil, ⟨[], by simp, by simp [leaks]⟩, fun es => .refl _ _⟩

theorem AcceptsL.mono {E Γ D l N M} (h : AcceptsL E Γ D l N) (k : N ≤ M) : AcceptsL E Γ D l M :=
  fun n hn => h n (by omega)

theorem Accepts.mono {E r Γ D t s N M} (h : Accepts E r Γ D t s N) (k : N ≤ M) : Accepts E r Γ D t s M :=
  fun n hn => h n (by omega)

/-- The equalities between consecutive members of a chain. -/
theorem pairs_accept {E : Env} {N : Nat} {r Γ D} : ∀ {ts : List Tm}, (∀ t ∈ ts, leak t = []) →
    (∀ t ∈ ts, Accepts E .sym Γ D t .message N) →
    AcceptsL E Γ D ((pairTerms .hardEq ts).map fun t => (r, propSort r, t)) (N + 1) ∧ leaks (pairTerms .hardEq ts) = []
  | [], _, _ => ⟨acceptsL_nil, rfl⟩
  | [_], _, _ => ⟨acceptsL_nil, rfl⟩
  | a :: b :: l, hl, h => by
    have ha := hl a (by simp)
    have hb := hl b (by simp)
    obtain ⟨ih, ik⟩ := pairs_accept (r := r) (ts := b :: l) (fun t ht => hl t (List.mem_cons_of_mem _ ht)) (fun t ht => h t (List.mem_cons_of_mem _ ht))
    have hlk : leak (.infx .hardEq [a, b]) = [] := by simp [leak, leaks, ha, hb]
    have h2 : AcceptsL E Γ D [(.sym, .message, a), (.sym, .message, b)] N := by
      have := acceptsL_cons (h a (by simp)) (s := .message) Same.rfl' (acceptsL_cons (l := []) (N := N) (M := N) (D := leak a ++ D)
        (by rw [ha]; exact h b (by simp)) (s := .message) Same.rfl' acceptsL_nil)
      exact this.mono (by omega)
    refine ⟨?_, by simp [pairTerms, leaks, hlk, ik]⟩
    have h3 := acceptsL_cons (s := propSort r) (hardEq_accepts (r := r) h2) (by cases r <;> rfl) (l := (pairTerms .hardEq (b :: l)).map fun t => (r, propSort r, t))
      (M := N + 1) (by rw [hlk]; exact ih)
    exact h3.mono (by omega)

theorem chain_accepts {E : Env} {N : Nat} {r Γ D ts} (h3 : 3 ≤ ts.length) (hl : ∀ t ∈ ts, leak t = [])
    (h : ∀ t ∈ ts, Accepts E .sym Γ D t .message N) : Accepts E r Γ D (.infx .hardEq ts) .condition (N + 3) := by
  intro n hn es st hS hf
  obtain ⟨m, rfl⟩ : ∃ m, n = m + 2 := ⟨n - 2, by omega⟩
  obtain ⟨hp, hk⟩ := pairs_accept (r := r) hl h
  have hs : Same r .condition (propSort r) := by cases r <;> rfl
  obtain ⟨φ, st', e, p⟩ := conn_ok (n := m) (es := es) (op := .and) (.inl rfl) (ts := pairTerms .hardEq ts)
    (by match ts, h3 with | a :: b :: l, _ => simp [pairTerms]) hp (by omega) hS (hf.same hs)
  refine ⟨φ, st', ?_, ?_, p.grow, ?_⟩
  · simp only [parse, parseInfix]
    rw [if_neg (by omega)]
    exact e
  · rw [hk] at p
    simpa [leak, leaks_none hl] using p.bv
  · intro hr
    obtain ⟨x, e, k⟩ := p.known hr
    exact ⟨x, e, k.trans hs.symm⟩

theorem bound_all {α : Type} {P : α → Nat → Prop} (hm : ∀ a N M, N ≤ M → P a N → P a M) : ∀ (l : List α), (∀ a ∈ l, ∃ N, P a N) →
    ∃ N, ∀ a ∈ l, P a N
  | [], _ => ⟨0, nofun⟩
  | a :: l, h => by
    obtain ⟨N, hN⟩ := h a (by simp)
    obtain ⟨M, hM⟩ := bound_all hm l fun b hb => h b (by simp [hb])
    refine ⟨max N M, fun b hb => ?_⟩
    rcases List.mem_cons.1 hb with rfl | hb
    · exact hm _ _ _ (by omega) hN
    · exact hm _ _ _ (by omega) (hM b hb)

mutual
theorem accepts {E : Env} : ∀ {r Γ D t s}, Ws E r Γ D t s → ∃ N, Accepts E r Γ D t s N
  | r, Γ, D, _, s, .var (x := x) hx hn => by
    refine ⟨1, fun n hN es st hS hf => ?_⟩
    obtain ⟨m, rfl⟩ : ∃ m, n = m + 1 := ⟨n - 1, by omega⟩
    obtain ⟨v, h1, rfl⟩ := hS.live x s hx
    simp only [parse, parseApplication, h1, parseVar]
    rw [if_neg hn]
    have hP : ∀ store, Grow es st.store store → Known store r es v.sort → Post r es (leak (.cvar x)) v.sort st { st with store := store } :=
      fun store g k => ⟨⟨[], by simp, by simp [leak]⟩, g, k⟩
    have hU : ∃ φ st', ((Out.ofOption (Px.unify st.store r es (.stat v.sort))).bind fun u =>
        (.ok (.var ⟨v.id, u.1⟩, { st with store := u.2 }) : PRes)) = .ok (φ, st') ∧ Post r es (leak (.cvar x)) v.sort st st' := by
      obtain ⟨u, hu, gu, ku⟩ := unify_ok hf (s' := v.sort) Same.rfl'
      exact ⟨.var ⟨v.id, u.1⟩, { st with store := u.2 }, by simp only [hu, Out.ofOption, Out.bind], hP _ gu ku⟩
    have hX : ∀ s' g, Same .ev v.sort s' → r = .ev → ∃ φ st', ((Out.ofOption (es.expects st.store .ev s')).bind fun store =>
        (.ok (.app g [.var v], { st with store := store }) : PRes)) = .ok (φ, st') ∧ Post r es (leak (.cvar x)) v.sort st st' := by
      rintro s' g hs rfl
      obtain ⟨b, hb, gb, kb⟩ := expects_ok hf hs
      exact ⟨.app g [.var v], { st with store := b }, by simp only [hb, Out.ofOption, Out.bind], hP _ gb kb⟩
    cases r with
    | sym => cases hv : v.sort <;> simp only [evaluated] <;> (rw [hv] at hU; exact hU)
    | ev =>
      cases hv : v.sort <;> simp only [evaluated, evalSym] <;>
        first
          | (rw [hv] at hX; exact hX _ _ rfl rfl)
          | (rw [hv] at hU; exact hU)
  | r, Γ, D, _, _, .const (x := x) (i := i) (o := o) h1 h2 hi hs => by
    refine ⟨1, fun n hN es st hS hf => ?_⟩
    obtain ⟨m, rfl⟩ : ∃ m, n = m + 1 := ⟨n - 1, by omega⟩
    rw [funOf_eq] at hi
    have hL : AcceptsL E Γ D (expect ((realmOf o).getD r) [] []) 0 :=
      fun _ _ _ st _ _ => ⟨[], st, .nil, ⟨[], by simp, by simp [leaks, expect]⟩, fun es => .refl _ _⟩
    obtain ⟨φ, st', e, p, _⟩ := fixed_ok (n := m) (es := es) hs rfl hL (by omega) hS hf
    simp only [parse, parseApplication, find_none (hS.dead x h1 h2), hi, Out.ofOption, Out.bind]
    exact ⟨φ, st', e, p⟩
  | r, Γ, D, _, _, .app hi hs hl ha => by
    obtain ⟨N, hN⟩ := acceptsL ha
    refine ⟨N + 1, fun n hn es st hS hf => ?_⟩
    obtain ⟨m, rfl⟩ : ∃ m, n = m + 1 := ⟨n - 1, by omega⟩
    rw [funOf_eq] at hi
    obtain ⟨φ, st', e, p, _⟩ := fixed_ok (n := m) (es := es) hs hl hN (by omega) hS hf
    simp only [parse, parseApplication, hi, Out.ofOption, Out.bind]
    exact ⟨φ, st', e, p⟩
  | r, Γ, D, _, s₂, .letin (x := x) (s := sn) (so := so) (s₁ := s₁) (t₁ := t₁) (t₂ := t₂) hso hx h1 hs h2 => by
    obtain ⟨N, hN⟩ := accepts h1
    obtain ⟨M, hM⟩ := accepts h2
    refine ⟨max N M + 1, fun n hn es st hS hf => ?_⟩
    obtain ⟨m, rfl⟩ : ∃ m, n = m + 1 := ⟨n - 1, by omega⟩
    have eb := binding_ok (b := (x, sn)) hS hx hso
    obtain ⟨φ, st1, e1, p1⟩ := hN m (by omega) (.stat so) { st with bvars := st.bvars ++ [(x, ⟨st.bvars.length, so⟩)] }
      (by simpa using hS.extend (lk := [(x, ⟨st.bvars.length, so⟩)])) (Takes.stat hs)
    have g1 := grow_all (es := .stat so) rfl p1.grow
    have hS1 : Seen ((x, so) :: Γ) (leak t₁ ++ D) st1.bvars :=
      p1.seen (Seen.push (v := ⟨st.bvars.length, so⟩) hS (hS.dead x hx.scope hx.dead))
    obtain ⟨ψ, st2, e2, p2⟩ := hM m (by omega) es st1 hS1 (hf.grow g1)
    refine ⟨Subst.apply (Subst.oneVar st.bvars.length φ) ψ, st2, by simp only [parse, parseLet, eb, Out.bind, e1, e2], ?_,
      (g1 es).trans p2.grow, p2.known⟩
    obtain ⟨l1, q1, k1⟩ := p1.bv
    obtain ⟨l2, q2, k2⟩ := p2.bv
    exact ⟨(x, ⟨st.bvars.length, so⟩) :: (l1 ++ l2), by rw [q2, q1]; simp, by simp [leak, k1, k2]⟩
  | _, Γ, D, _, sa, .iteEv (c := c) (a := a) (b := b) hc hsc ha hb hs => by
    obtain ⟨N, hN⟩ := accepts hc
    obtain ⟨M, hM⟩ := accepts ha
    obtain ⟨K, hK⟩ := accepts hb
    refine ⟨max N (max M K) + 1, fun n hn es st hS hf => ?_⟩
    obtain ⟨m, rfl⟩ : ∃ m, n = m + 1 := ⟨n - 1, by omega⟩
    obtain ⟨φ, st1, e1, p1⟩ := hN m (by omega) (.stat .bool) st hS (Takes.stat hsc)
    have g1 := grow_all (es := .stat .bool) rfl p1.grow
    have f1 := hf.grow g1
    obtain ⟨ψ, st2, e2, p2⟩ := hM m (by omega) es st1 (p1.seen hS) f1
    have f2 := f1.known p2.grow p2.known
    obtain ⟨χ, st3, e3, p3⟩ := hK m (by omega) es st2 (p2.seen (p1.seen hS)) (f2.same hs)
    refine ⟨.app .ite [φ, ψ, χ], st3, by simp only [parse, parseIte, iteCond, iteBr, Out.bind, e1, e2, e3], ?_,
      ((g1 es).trans p2.grow).trans p3.grow, fun hr => ?_⟩
    · obtain ⟨l1, q1, k1⟩ := p1.bv
      obtain ⟨l2, q2, k2⟩ := p2.bv
      obtain ⟨l3, q3, k3⟩ := p3.bv
      exact ⟨l1 ++ (l2 ++ l3), by rw [q3, q2, q1]; simp, by simp [leak, k1, k2, k3]⟩
    · obtain ⟨x, h1, h2⟩ := p3.known hr
      exact ⟨x, h1, h2.trans hs.symm⟩
  | _, Γ, D, _, _, .iteSym (c := c) (a := a) (b := b) hc ha hb => by
    obtain ⟨N, hN⟩ := accepts hc
    obtain ⟨M, hM⟩ := accepts ha
    obtain ⟨K, hK⟩ := accepts hb
    refine ⟨max N (max M K) + 1, fun n hn es st hS hf => ?_⟩
    obtain ⟨m, rfl⟩ : ∃ m, n = m + 1 := ⟨n - 1, by omega⟩
    obtain ⟨φ, st1, e1, p1⟩ := hN m (by omega) (.stat .condition) st hS (Takes.stat Same.rfl')
    obtain ⟨ψ, st2, e2, p2⟩ := hM m (by omega) (.stat .message) st1 (p1.seen hS) (Takes.stat Same.rfl')
    obtain ⟨χ, st3, e3, p3⟩ := hK m (by omega) (.stat .message) st2 (p2.seen (p1.seen hS)) (Takes.stat Same.rfl')
    refine ⟨.app .taIte [φ, ψ, χ], st3, by simp only [parse, parseIte, iteCond, iteBr, Out.bind, e1, e2, e3], ?_,
      (p1.grow.weaken.trans p2.grow.weaken).trans p3.grow.weaken, fun hr => by cases hr⟩
    obtain ⟨l1, q1, k1⟩ := p1.bv
    obtain ⟨l2, q2, k2⟩ := p2.bv
    obtain ⟨l3, q3, k3⟩ := p3.bv
    exact ⟨l1 ++ (l2 ++ l3), by rw [q3, q2, q1]; simp, by simp [leak, k1, k2, k3]⟩
  | r, Γ, D, _, _, .find (vs := vs) (Δ := Δ) (c := c) (a := a) (b := b) hb hB hc ha => by
    obtain ⟨N, hN⟩ := accepts hb
    obtain ⟨M, hM⟩ := accepts hc
    obtain ⟨K, hK⟩ := accepts ha
    refine ⟨max N (max M K) + 1, fun n hn es st hS hf => ?_⟩
    obtain ⟨m, rfl⟩ : ∃ m, n = m + 1 := ⟨n - 1, by omega⟩
    obtain ⟨sto, e0, g0, k0⟩ := expects_ok hf (s' := .message) Same.rfl'
    obtain ⟨φ, st1, e1, p1⟩ := hN m (by omega) (.stat .message) { st with store := sto } hS (Takes.stat Same.rfl')
    obtain ⟨v, l, ev, hSv⟩ := bindings_ok (p1.seen hS) hB
    obtain ⟨ψ, st2, e2, p2⟩ := hM m (by omega) (.stat .condition) { st1 with bvars := st1.bvars ++ l } hSv (Takes.stat Same.rfl')
    obtain ⟨χ, st3, e3, p3⟩ := hK m (by omega) (.stat .message) st2 (p2.seen hSv) (Takes.stat Same.rfl')
    obtain ⟨l1, q1, k1⟩ := p1.bv
    obtain ⟨l2, q2, k2⟩ := p2.bv
    obtain ⟨l3, q3, k3⟩ := p3.bv
    have gg : ∀ es, Grow es sto st3.store := fun es => (p1.grow.weaken.trans p2.grow.weaken).trans p3.grow.weaken
    simp only [parse, parseFind, e0, Out.ofOption, Out.bind, e1, ev, e2, e3, allocTA]
    refine ⟨_, _, rfl, ⟨l1, ?_, by simpa [leak] using k1⟩, g0.trans (gg es), fun hr => ?_⟩
    · simp only [q3, q2, List.append_assoc]
      rw [List.take_left]
      exact q1
    · obtain ⟨x, h1, h2⟩ := k0 hr
      exact ⟨x, (gg es).get h1, h2⟩
  | r, Γ, D, _, _, .quant (k := k) (vs := vs) (Δ := Δ) (b := b) (s := s) hB hb hs => by
    obtain ⟨N, hN⟩ := accepts hb
    refine ⟨N + 1, fun n hn es st hS hf => ?_⟩
    obtain ⟨m, rfl⟩ : ∃ m, n = m + 1 := ⟨n - 1, by omega⟩
    obtain ⟨sto, e0, g0, k0⟩ := expects_ok hf (s' := propSort r) Same.rfl'
    obtain ⟨v, l, ev, hSv⟩ := bindings_ok (st := { st with store := sto }) hS hB
    obtain ⟨ψ, st2, e2, p2⟩ := hN m (by omega) (.stat (propSort r)) { st with store := sto, bvars := st.bvars ++ l } hSv (Takes.stat hs)
    obtain ⟨l2, q2, k2⟩ := p2.bv
    have hq : st2.bvars.take st.bvars.length = st.bvars := by
      rw [q2]
      simp only [List.append_assoc]
      rw [List.take_left]
    have gg : ∀ es, Grow es sto st2.store := fun es => p2.grow.weaken
    have hk : Known st2.store r es (propSort r) := fun hr => by
      obtain ⟨x, h1, h2⟩ := k0 hr
      exact ⟨x, (gg es).get h1, h2⟩
    cases r with
    | sym =>
      simp only [propSort] at e0 e2
      simp only [parse, parseQuant, e0, Out.ofOption, Out.bind, ev, e2, allocTA]
      exact ⟨_, _, rfl, ⟨[], by simp [hq], by simp [leak]⟩, g0.trans (gg es), hk⟩
    | ev =>
      simp only [propSort] at e0 e2
      simp only [parse, parseQuant, e0, Out.ofOption, Out.bind, ev, e2, allocTA]
      exact ⟨_, _, rfl, ⟨[], by simp [hq], by simp [leak]⟩, g0.trans (gg es), hk⟩
  | r, Γ, D, _, _, .hardEq (a := a) (b := b) h => by
    obtain ⟨N, hN⟩ := acceptsL h
    exact ⟨N + 1, hardEq_accepts hN⟩
  | _, Γ, D, _, _, .eqEv (a := a) (b := b) ha hb hs => by
    obtain ⟨N, hN⟩ := accepts ha
    obtain ⟨M, hM⟩ := accepts hb
    refine ⟨max N M + 1, fun n hn es st hS hf => ?_⟩
    obtain ⟨m, rfl⟩ : ∃ m, n = m + 1 := ⟨n - 1, by omega⟩
    obtain ⟨φ, st', e, p⟩ := eq2_ok (n := m) hN hM (by omega) (by omega) hS hf
    exact ⟨φ, st', by simp only [parse, parseInfix]; exact e, p⟩
  | _, Γ, D, _, _, .eqSym (a := a) (b := b) h => by
    obtain ⟨N, hN⟩ := acceptsL h
    refine ⟨N + 2, fun n hn es st hS hf => ?_⟩
    obtain ⟨m, rfl⟩ : ∃ m, n = m + 2 := ⟨n - 2, by omega⟩
    obtain ⟨φ, st', e, p, _⟩ := fixed_ok (n := m) (es := es) (i := taEqInfo) (a := [.message, .message]) (o := .condition)
      (args := [a, b]) rfl rfl (r := .sym) hN (by omega) hS hf
    simp only [parse, parseInfix]
    rw [if_pos (show [a, b].length = 2 from rfl)]
    exact ⟨φ, st', e, p⟩
  | r, Γ, D, _, _, .chain (ts := ts) h3 hl h => by
    have hA : ∀ t ∈ ts, ∃ N, Accepts E .sym Γ D t .message N := fun t ht => accepts (h t ht)
    obtain ⟨N, hN⟩ := bound_all (P := fun t N => Accepts E .sym Γ D t .message N) (fun t N M k h => Accepts.mono h k) ts hA
    exact ⟨N + 3, chain_accepts h3 hl hN⟩
  | _, Γ, D, _, _, .eqChain (ts := ts) h3 hl h => by
    have hA : ∀ t ∈ ts, ∃ N, Accepts E .sym Γ D t .message N := fun t ht => accepts (h t ht)
    obtain ⟨N, hN⟩ := bound_all (P := fun t N => Accepts E .sym Γ D t .message N) (fun t N M k h => Accepts.mono h k) ts hA
    refine ⟨N + 4, fun n hn es st hS hf => ?_⟩
    obtain ⟨m, rfl⟩ : ∃ m, n = m + 1 := ⟨n - 1, by omega⟩
    obtain ⟨φ, st', e, p⟩ := chain_accepts (r := .sym) h3 hl hN m (by omega) es st hS hf
    exact ⟨φ, st', by simp only [parse, parseInfix]; exact e, by simpa [leak] using p⟩
  | r, Γ, D, _, s, .neq (ts := ts) h => by
    have hs := eq_sort h
    obtain ⟨N, hN⟩ := accepts h
    refine ⟨N + 1, fun n hn es st hS hf => ?_⟩
    obtain ⟨m, rfl⟩ : ∃ m, n = m + 1 := ⟨n - 1, by omega⟩
    obtain ⟨φ, st', e, p⟩ := not_ok (n := m) hN (by rw [hs]; exact Same.rfl') (by omega) hS hf
    exact ⟨φ, st', by simp only [parse, parseInfix]; exact e, by simpa [leaks, leak] using p⟩
  | _, Γ, D, _, _, .iff (a := a) (b := b) ha _ hb _ => by
    obtain ⟨N, hN⟩ := accepts ha
    obtain ⟨M, hM⟩ := accepts hb
    refine ⟨max N M + 1, fun n hn es st hS hf => ?_⟩
    obtain ⟨m, rfl⟩ : ∃ m, n = m + 1 := ⟨n - 1, by omega⟩
    obtain ⟨φ, st', e, p⟩ := eq2_ok (n := m) hN hM (by omega) (by omega) hS hf
    exact ⟨φ, st', by simp only [parse, parseInfix]; exact e, p⟩
  | r, Γ, D, _, _, .implies (a := a) (b := b) h => by
    obtain ⟨N, hN⟩ := acceptsL h
    refine ⟨N + 1, fun n hn es st hS hf => ?_⟩
    obtain ⟨m, rfl⟩ : ∃ m, n = m + 1 := ⟨n - 1, by omega⟩
    have hsig : (impInfo r).sig = .fixed [propSort r, propSort r] (propSort r) := by cases r <;> rfl
    obtain ⟨φ, st', e, p, _⟩ := fixed_ok (n := m) (es := es) (args := [a, b]) hsig rfl (r := r)
      (by rw [realm_prop]; exact hN) (by omega) hS (by rw [outOf_prop]; exact hf)
    rw [outOf_prop] at p
    exact ⟨φ, st', by simp only [parse, parseInfix]; exact e, p⟩
  | r, Γ, D, _, _, .conn ho hne h => by
    obtain ⟨N, hN⟩ := acceptsL h
    refine ⟨N + 1, fun n hn es st hS hf => ?_⟩
    obtain ⟨m, rfl⟩ : ∃ m, n = m + 1 := ⟨n - 1, by omega⟩
    obtain ⟨φ, st', e, p⟩ := conn_ok (n := m) ho hne hN (by omega) hS hf
    exact ⟨φ, st', by simp only [parse]; exact e, p⟩
  | r, Γ, D, _, s, .msg hf hE hs hi hn hl ha hd hb => by
    obtain ⟨N, hN⟩ := acceptsL ha
    obtain ⟨M, hM⟩ := accepts hb
    refine ⟨max N M + 1, fun n hn' es st hS ht => ?_⟩
    obtain ⟨m, rfl⟩ : ∃ m, n = m + 1 := ⟨n - 1, by omega⟩
    obtain ⟨φ, st', e, p⟩ := step_ok (n := m) (·.message) hf hE hs hi hn hl hN hd hM (by omega) (by omega) hS ht
    exact ⟨φ, st', by simp only [parse]; exact e, p⟩
  | r, Γ, D, _, s, .cond hf hE hs hi hn hl ha hd hb => by
    obtain ⟨N, hN⟩ := acceptsL ha
    obtain ⟨M, hM⟩ := accepts hb
    refine ⟨max N M + 1, fun n hn' es st hS ht => ?_⟩
    obtain ⟨m, rfl⟩ : ∃ m, n = m + 1 := ⟨n - 1, by omega⟩
    obtain ⟨φ, st', e, p⟩ := step_ok (n := m) (·.condition) hf hE hs hi hn hl hN hd hM (by omega) (by omega) hS ht
    exact ⟨φ, st', by simp only [parse]; exact e, p⟩
  | r, Γ, D, _, s, .mac (m := mn) (c := c) (args := args) hm hl ha hd hb => by
    obtain ⟨N, hN⟩ := acceptsL ha
    obtain ⟨M, hM⟩ := accepts hb
    refine ⟨max N M + 1, fun n hn' es st hS ht => ?_⟩
    obtain ⟨m, rfl⟩ : ∃ m, n = m + 1 := ⟨n - 1, by omega⟩
    obtain ⟨xs, st1, h1, p1⟩ := hN m (by omega) .stat st hS (fun z _ => rfl)
    have hlk : leaks (((c.params.zip args).map fun p => ((realmOf p.1.2).getD r, p.1.2, p.2)).map (·.2.2)) = leaks args := by
      congr 1
      simp only [List.map_map, Function.comp_def]
      exact List.map_snd_zip (by omega)
    rw [hlk] at p1
    have h1' : parseMacArgs (parse E m) r (c.params.zip args) st = .ok (xs, st1) := each_mac (by simpa [Function.comp_def] using h1)
    obtain ⟨ψ, st2, h2, p2⟩ := hM m (by omega) es { st1 with bvars := numbered c.params } (seen_numbered hd) (ht.grow p1.grow)
    simp only [parse, parseMac, hm]
    rw [if_pos hl.symm, h1']
    simp only [Out.bind, h2]
    exact ⟨_, _, rfl, p1.bv, (p1.grow es).trans p2.grow, p2.known⟩
theorem acceptsL {E : Env} : ∀ {Γ D l}, WsL E Γ D l → ∃ N, AcceptsL E Γ D l N
  | _, _, _, .nil => ⟨0, fun _ _ _ st _ _ => ⟨[], st, .nil, ⟨[], by simp, by simp [leaks]⟩, fun es => .refl _ _⟩⟩
  | _, _, _, .cons h hs hl => by
    obtain ⟨N, hN⟩ := accepts h
    obtain ⟨M, hM⟩ := acceptsL hl
    exact ⟨max N M, acceptsL_cons hN hs hM⟩
end

end Prs
end CV
