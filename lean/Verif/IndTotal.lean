import Verif.IndSearch
import Mathlib.Data.Finset.Card
import Mathlib.Data.Finset.Range
set_option linter.unusedSimpArgs false
/-
Property C70, continued: the searches of the prototype for indistinguishability end, and what they find.
-/
namespace CV
namespace Ind

/-! ### The searches end -/

/-- The number of classes that are not in the map. -/
def unm (N : Nat) (m : Memo) : Nat := ((Finset.range N).filter fun i => m i = none).card

/-- Nothing is removed from the map. -/
def Ext (m m' : Memo) : Prop := ∀ i, m i ≠ none → m' i ≠ none

theorem Ext.refl (m : Memo) : Ext m m := fun _ h => h
theorem Ext.trans {m m' m'' : Memo} (h : Ext m m') (h' : Ext m' m'') : Ext m m'' := fun i hi => h' i (h i hi)
theorem Ext.insert (m : Memo) (t : Nat) (s : Status) : Ext m (m.insert t s) := by
  intro i hi
  unfold Memo.insert
  split
  · exact nofun
  · exact hi

theorem unm_mono {N : Nat} {m m' : Memo} (h : Ext m m') : unm N m' ≤ unm N m := by
  apply Finset.card_le_card
  intro i hi
  rw [Finset.mem_filter] at hi ⊢
  exact ⟨hi.1, by_contra fun hc => h i hc hi.2⟩

theorem unm_insert {N : Nat} {m : Memo} {t : Nat} (ht : t < N) (h : m t = none) (s : Status) : unm N (m.insert t s) < unm N m := by
  apply Finset.card_lt_card
  refine ⟨?_, ?_⟩
  · intro i hi
    rw [Finset.mem_filter] at hi ⊢
    exact ⟨hi.1, by_contra fun hc => Ext.insert m t s i hc hi.2⟩
  · intro hc
    have := hc (Finset.mem_filter.2 ⟨Finset.mem_range.2 ht, h⟩)
    rw [Finset.mem_filter] at this
    simp [Memo.insert] at this

theorem unm_le (N : Nat) (m : Memo) : unm N m ≤ N := by
  have := Finset.card_filter_le (Finset.range N) (fun i => m i = none)
  simpa [unm] using this

theorem allM_total {N B : Nat} {f : Memo → Nat → Option (Bool × Memo)}
    (hf : ∀ m i, unm N m < B → ∃ r, f m i = some r ∧ Ext m r.2) : ∀ (l : List Nat) (m : Memo), unm N m < B →
    ∃ r, allM f m l = some r ∧ Ext m r.2
  | [], m, _ => ⟨_, rfl, Ext.refl m⟩
  | i :: is, m, hm => by
    obtain ⟨r, h1, h2⟩ := hf m i hm
    simp only [allM, h1, Option.bind_some]
    split
    · obtain ⟨q, h3, h4⟩ := allM_total hf is r.2 (Nat.lt_of_le_of_lt (unm_mono h2) hm)
      exact ⟨q, h3, h2.trans h4⟩
    · exact ⟨_, rfl, h2⟩

theorem anyM_total {N B : Nat} {f : Memo → Node → Option (Bool × Memo)}
    (hf : ∀ m i, unm N m < B → ∃ r, f m i = some r ∧ Ext m r.2) : ∀ (l : List Node) (m : Memo), unm N m < B →
    ∃ r, anyM f m l = some r ∧ Ext m r.2
  | [], m, _ => ⟨_, rfl, Ext.refl m⟩
  | i :: is, m, hm => by
    obtain ⟨r, h1, h2⟩ := hf m i hm
    simp only [anyM, h1, Option.bind_some]
    split
    · exact ⟨_, rfl, h2⟩
    · obtain ⟨q, h3, h4⟩ := anyM_total hf is r.2 (Nat.lt_of_le_of_lt (unm_mono h2) hm)
      exact ⟨q, h3, h2.trans h4⟩

theorem down_total {N : Nat} {G : EG} (hG : ∀ i, ∀ n ∈ G i, i < N) {next : Node → List Nat} {ignore : List Nat} {k : Nat} :
    ∀ (fuel : Nat) (m : Memo) (t : Nat), unm N m < fuel → ∃ r, down G next ignore k fuel m t = some r ∧ Ext m r.2
  | 0, _, _, h => by omega
  | fuel + 1, m, t, h => by
    have key : m t = none → ∃ r, (if t = k then some (false, m) else if t ∈ ignore then some (true, m)
        else anyM (fun m n => allM (down G next ignore k fuel) m (next n)) (m.insert t .searching) (G t)) = some r ∧ Ext m r.2 := by
      intro hm
      split
      · exact ⟨_, rfl, Ext.refl m⟩
      split
      · exact ⟨_, rfl, Ext.refl m⟩
      by_cases ht : t < N
      · have hlt := unm_insert ht hm .searching
        obtain ⟨r, h1, h2⟩ := anyM_total (N := N) (B := fuel) (fun m' n hm' => allM_total (down_total hG fuel) (next n) m' hm')
          (G t) (m.insert t .searching) (by omega)
        exact ⟨r, h1, (Ext.insert m t _).trans h2⟩
      · have : G t = [] := List.eq_nil_iff_forall_not_mem.2 fun n hn => ht (hG t n hn)
        rw [this]
        exact ⟨_, rfl, Ext.insert m t _⟩
    unfold down
    split
    · exact ⟨_, rfl, Ext.refl m⟩
    · exact ⟨_, rfl, Ext.refl m⟩
    · exact ⟨_, rfl, Ext.refl m⟩
    · rename_i hm
      obtain ⟨r, h1, h2⟩ := key hm
      exact ⟨_, by rw [h1]; rfl, h2.trans (Ext.insert _ t _)⟩

theorem valid_total {N : Nat} {G : EG} (hG : ∀ i, ∀ n ∈ G i, i < N) {ignore : List Nat} {fuel : Nat} (hf : N < fuel) :
    ∀ (cs : List Check) (ms : List Memo) (i : Nat), ∃ r, valid G ignore fuel cs ms i = some r
  | [], _, _ => ⟨_, by simp [valid]; rfl⟩
  | _ :: _, [], _ => ⟨_, by simp [valid]; rfl⟩
  | c :: cs, m :: ms, i => by
    obtain ⟨r, h1, _⟩ := down_total hG (next := c.next) (ignore := ignore) (k := c.nonce) fuel m i (Nat.lt_of_le_of_lt (unm_le N m) hf)
    simp only [valid, h1, Option.bind_some]
    split
    · obtain ⟨q, h2⟩ := valid_total hG hf cs ms i
      exact ⟨_, by rw [h2]; rfl⟩
    · exact ⟨_, rfl⟩

theorem siblings_total {N : Nat} {G : EG} (hG : ∀ i, ∀ n ∈ G i, i < N) {ignore : List Nat} {fuel : Nat} (hf : N < fuel) {cs : List Check}
    {id : Nat} : ∀ (l : List Nat) (ms : List Memo), ∃ r, siblings G ignore fuel cs id ms l = some r
  | [], _ => ⟨_, rfl⟩
  | s :: ss, ms => by
    simp only [siblings]
    split
    · exact siblings_total hG hf ss ms
    · obtain ⟨r, h1⟩ := valid_total hG hf (ignore := ignore) cs ms s
      rw [h1, Option.bind_some]
      split
      · exact siblings_total hG hf ss r.2
      · exact ⟨_, rfl⟩

theorem checkAll_total {N : Nat} {G : EG} (hG : ∀ i, ∀ n ∈ G i, i < N) {fuel : Nat} (hf : N < fuel) {i : Nat} :
    ∀ (cs : List Check), ∃ r, checkAll G fuel i cs = some r
  | [] => ⟨_, rfl⟩
  | c :: cs => by
    obtain ⟨r, h1, _⟩ := down_total hG (next := c.next) (ignore := []) (k := c.nonce) fuel (fun _ => none) i
      (Nat.lt_of_le_of_lt (unm_le N _) hf)
    simp only [checkAll, h1, Option.bind_some]
    split
    · obtain ⟨q, h2⟩ := checkAll_total hG hf cs
      exact ⟨_, by rw [h2]; rfl⟩
    · exact ⟨_, rfl⟩

/-- The classes that wait are in use and were not treated. -/
def Fresh (N : Nat) (s : Srch) : Prop := ∀ p ∈ s.todos, p.1 < N ∧ p.1 ∉ s.done

theorem upOnce_total {N : Nat} {G : EG} (hG : ∀ i, ∀ n ∈ G i, i < N) {rep : Nat → Tm} {ignore : List Nat} {fuel : Nat} (hf : N < fuel)
    {cs : List Check} {l : Node} {p i : Nat} {t : Tm} {s : Srch} (hp : p < N) (hs : Fresh N s) :
    ∃ s', upOnce G rep ignore fuel cs l p i t s = some s' ∧ Fresh N s' ∧ s'.done = s.done := by
  obtain ⟨r, h1⟩ := siblings_total hG hf (ignore := ignore) (cs := cs) (id := i) l.ch s.memos
  refine ⟨_, by unfold upOnce; rw [h1]; rfl, ?_⟩
  dsimp only
  split
  · unfold Srch.push
    split
    · exact ⟨hs, rfl⟩
    · rename_i hd
      refine ⟨?_, rfl⟩
      intro q hq
      rw [List.mem_append, List.mem_singleton] at hq
      rcases hq with hq | rfl
      · exact hs q (List.mem_filter.1 hq).1
      · exact ⟨hp, hd⟩
  · exact ⟨hs, rfl⟩

theorem ups_total {N : Nat} {G : EG} (hG : ∀ i, ∀ n ∈ G i, i < N) {rep : Nat → Tm} {ignore : List Nat} {fuel : Nat} (hf : N < fuel)
    {cs : List Check} {i : Nat} {t : Tm} : ∀ (ps : List (Node × Nat)) (s : Srch), (∀ p ∈ ps, p.2 < N) → Fresh N s →
    ∃ s', ups G rep ignore fuel cs i t ps s = some s' ∧ Fresh N s' ∧ s'.done = s.done
  | [], s, _, hs => ⟨s, rfl, hs, rfl⟩
  | (l, p) :: ps, s, hps, hs => by
    obtain ⟨s₁, h1, h2, h3⟩ := upOnce_total hG (rep := rep) (ignore := ignore) (cs := cs) (l := l) (i := i) (t := t) hf
      (hps (l, p) (List.mem_cons_self ..)) hs
    obtain ⟨s₂, h4, h5, h6⟩ := ups_total hG (rep := rep) (ignore := ignore) (cs := cs) (i := i) (t := t) hf ps s₁
      (fun p hp => hps p (List.mem_cons_of_mem _ hp)) h2
    exact ⟨s₂, by simp only [ups, h1, Option.bind_some, h4], h5, h6.trans h3⟩

/-- The number of classes that were not treated. -/
def left (N : Nat) (done : List Nat) : Nat := ((Finset.range N).filter fun i => i ∉ done).card

theorem left_cons {N : Nat} {done : List Nat} {i : Nat} (hi : i < N) (h : i ∉ done) : left N (i :: done) < left N done := by
  apply Finset.card_lt_card
  refine ⟨?_, ?_⟩
  · intro j hj
    rw [Finset.mem_filter] at hj ⊢
    exact ⟨hj.1, fun hc => hj.2 (List.mem_cons_of_mem _ hc)⟩
  · intro hc
    have := hc (Finset.mem_filter.2 ⟨Finset.mem_range.2 hi, h⟩)
    rw [Finset.mem_filter] at this
    exact this.2 (List.mem_cons_self ..)

theorem run_total {N : Nat} {G : EG} (hG : ∀ i, ∀ n ∈ G i, i < N) {rep : Nat → Tm} {parents : Nat → List (Node × Nat)}
    (hpar : ∀ i, ∀ p ∈ parents i, p.1 ∈ G p.2 ∧ i ∈ p.1.ch) {order : List (Nat × Tm) → List (Nat × Tm)} (hord : ∀ l, ∀ p ∈ order l, p ∈ l)
    {ignore : List Nat} {dfuel : Nat} (hf : N < dfuel) {cs : List Check} : ∀ (fuel : Nat) (s : Srch), Fresh N s → left N s.done < fuel →
    ∃ res, run G rep parents order ignore dfuel cs fuel s = some res
  | 0, _, _, h => by omega
  | fuel + 1, s, hs, h => by
    simp only [run]
    split
    · exact ⟨_, rfl⟩
    · rename_i i t rest ho
      obtain ⟨hi, hd⟩ := hs (i, t) (hord s.todos (i, t) (by rw [ho]; exact List.mem_cons_self ..))
      have hl : left N (i :: s.done) < left N s.done := left_cons hi hd
      have hs' : Fresh N { s with todos := s.todos.filter (fun p => p.1 ≠ i), done := i :: s.done } := by
        intro p hp
        obtain ⟨h1, h2⟩ := List.mem_filter.1 hp
        refine ⟨(hs p h1).1, ?_⟩
        intro hc
        rcases List.mem_cons.1 hc with hc | hc
        · simp [hc] at h2
        · exact (hs p h1).2 hc
      split
      · obtain ⟨res, hr⟩ := run_total hG (rep := rep) hpar hord (ignore := ignore) hf (cs := cs) fuel _ hs' (by dsimp only; omega)
        exact ⟨_, by rw [hr]; rfl⟩
      · obtain ⟨s'', h1, h2, h3⟩ := ups_total hG (rep := rep) (ignore := ignore) (cs := cs) (i := i) (t := t) hf (parents i) _
          (fun p hp => hG p.2 p.1 (hpar i p hp).1) hs'
        rw [h1, Option.bind_some]
        exact run_total hG hpar hord hf fuel s'' h2 (by rw [h3]; dsimp only; omega)

theorem left_le (N : Nat) (l : List Nat) : left N l ≤ N := by
  have := Finset.card_filter_le (Finset.range N) (fun i => i ∉ l)
  simpa [left] using this

/-- **C70 (the searches end).** On every e-graph, in every order, both searches end: a depth of recursion of `N + 1` and
`N + 1` classes taken suffice, where `N` is the number of classes. -/
theorem C70_ends {N : Nat} {G : EG} {rep : Nat → Tm} (hW : WF N G rep) {parents : Nat → List (Node × Nat)}
    (hpar : ∀ i, ∀ p ∈ parents i, p.1 ∈ G p.2 ∧ i ∈ p.1.ch) {order : List (Nat × Tm) → List (Nat × Tm)} (hord : ∀ l, ∀ p ∈ order l, p ∈ l)
    {I : Inst} (hI : Matched G I) (nk : Nat) :
    (∃ res, indCca G rep parents order (N + 1) (N + 1) I = some res) ∧ ∃ res, encKp G rep parents order (N + 1) (N + 1) I nk = some res := by
  have hG : ∀ i, ∀ n ∈ G i, i < N := fun i n hn => (hW.low i n hn).1
  obtain ⟨p, hp, _⟩ := hI.node
  have hc : I.c < N := hG _ _ hp
  have hfr : ∀ t ms, Fresh N ⟨[(I.c, t)], [], ms⟩ := fun t ms => List.forall_mem_singleton.2 ⟨hc, List.not_mem_nil⟩
  constructor
  · unfold indCca
    split
    · exact ⟨_, rfl⟩
    split
    · exact ⟨_, rfl⟩
    obtain ⟨r, hr⟩ := checkAll_total hG (Nat.lt_succ_self N) (i := I.m) [⟨nextKey I.k, I.k⟩, ⟨nextRand, I.r⟩]
    simp only [hr, Option.bind_some]
    split
    · exact run_total hG hpar hord (Nat.lt_succ_self N) _ _ (hfr _ _) (Nat.lt_succ_of_le (left_le N _))
    · exact ⟨_, rfl⟩
  · unfold encKp
    split
    · exact ⟨_, rfl⟩
    split
    · exact ⟨_, rfl⟩
    split
    · exact ⟨_, rfl⟩
    obtain ⟨r, hr⟩ := checkAll_total hG (Nat.lt_succ_self N) (i := I.m) [⟨nextKpKey I.k, I.k⟩, ⟨nextKpKey nk, nk⟩, ⟨nextKpRand, I.r⟩]
    simp only [hr, Option.bind_some]
    split
    · exact run_total hG hpar hord (Nat.lt_succ_self N) _ _ (hfr _ _) (Nat.lt_succ_of_le (left_le N _))
    · exact ⟨_, rfl⟩

/-! ### What is found -/

/-- The map tells exactly what holds. -/
structure Exact (P : Nat → Prop) (m : Memo) : Prop where
  sound : ∀ i, m i = some .notFound → P i
  found : ∀ i, m i = some .found → ¬ P i

theorem Exact.insert {P : Nat → Prop} {m : Memo} (h : Exact P m) {i : Nat} {s : Status} (h1 : s = .notFound → P i) (h2 : s = .found → ¬ P i) :
    Exact P (m.insert i s) := by
  constructor
  all_goals
    intro j hj
    unfold Memo.insert at hj
    split at hj
    · rename_i e
      subst e
      cases hj
      first | exact h1 rfl | exact h2 rfl
    · first | exact h.sound j hj | exact h.found j hj

/-- What a call adds to the map has rank at most `b`, and it leaves nothing under search. -/
structure Adds (rank : Nat → Nat) (b : Nat) (m m' : Memo) : Prop where
  srch : ∀ i, m' i = some .searching → m i = some .searching
  low : ∀ i, m' i ≠ none → m i ≠ none ∨ rank i ≤ b

theorem Adds.trans {rank : Nat → Nat} {b : Nat} {m m' m'' : Memo} (h : Adds rank b m m') (h' : Adds rank b m' m'') : Adds rank b m m'' :=
  ⟨fun i hi => h.srch i (h'.srch i hi), fun i hi => (h'.low i hi).elim (h.low i) .inr⟩

/-- Classes under search have rank above `b`. -/
def Above (rank : Nat → Nat) (b : Nat) (m : Memo) : Prop := ∀ i, m i = some .searching → b < rank i

theorem allM_exact {P : Nat → Prop} {rank : Nat → Nat} {b : Nat} {f : Memo → Nat → Option (Bool × Memo)}
    (hf : ∀ m i r, rank i ≤ b → Exact P m → Above rank b m → f m i = some r → Exact P r.2 ∧ Adds rank b m r.2 ∧ (r.1 = true ↔ P i)) :
    ∀ (l : List Nat) (m : Memo) (r : Bool × Memo), (∀ i ∈ l, rank i ≤ b) → Exact P m → Above rank b m → allM f m l = some r →
      Exact P r.2 ∧ Adds rank b m r.2 ∧ (r.1 = true ↔ ∀ i ∈ l, P i)
  | [], m, r, _, hm, _, h => by
    simp only [allM] at h
    cases h
    exact ⟨hm, ⟨fun _ h => h, fun _ h => .inl h⟩, by simp⟩
  | i :: is, m, r, hl, hm, ha, h => by
    simp only [allM] at h
    obtain ⟨q, hq, h⟩ := Option.bind_eq_some_iff.1 h
    obtain ⟨h1, h2, h3⟩ := hf m i q (hl i (List.mem_cons_self ..)) hm ha hq
    split at h
    · rename_i ht
      obtain ⟨h4, h5, h6⟩ := allM_exact hf is q.2 r (fun j hj => hl j (List.mem_cons_of_mem _ hj)) h1 (fun j hj => ha j (h2.srch j hj)) h
      refine ⟨h4, h2.trans h5, ?_⟩
      rw [List.forall_mem_cons, h6]
      exact ⟨fun e => ⟨h3.1 ht, e⟩, fun e => e.2⟩
    · rename_i ht
      cases h
      refine ⟨h1, h2, ?_⟩
      rw [List.forall_mem_cons]
      exact ⟨fun e => (nomatch e), fun e => absurd (h3.2 e.1) ht⟩

theorem anyM_exact {P : Nat → Prop} {Q : Node → Prop} {rank : Nat → Nat} {b : Nat} {f : Memo → Node → Option (Bool × Memo)} :
    ∀ (l : List Node) (_ : ∀ n ∈ l, ∀ m r, Exact P m → Above rank b m → f m n = some r →
        Exact P r.2 ∧ Adds rank b m r.2 ∧ (r.1 = true ↔ Q n))
      (m : Memo) (r : Bool × Memo), Exact P m → Above rank b m → anyM f m l = some r →
      Exact P r.2 ∧ Adds rank b m r.2 ∧ (r.1 = true ↔ ∃ i ∈ l, Q i)
  | [], _, m, r, hm, _, h => by
    simp only [anyM] at h
    cases h
    exact ⟨hm, ⟨fun _ h => h, fun _ h => .inl h⟩, by simp⟩
  | i :: is, hf, m, r, hm, ha, h => by
    simp only [anyM] at h
    obtain ⟨q, hq, h⟩ := Option.bind_eq_some_iff.1 h
    obtain ⟨h1, h2, h3⟩ := hf i (List.mem_cons_self ..) m q hm ha hq
    split at h
    · rename_i ht
      cases h
      exact ⟨h1, h2, ⟨fun _ => ⟨i, List.mem_cons_self .., h3.1 ht⟩, fun _ => rfl⟩⟩
    · rename_i ht
      obtain ⟨h4, h5, h6⟩ := anyM_exact is (fun n hn => hf n (List.mem_cons_of_mem _ hn)) q.2 r h1 (fun j hj => ha j (h2.srch j hj)) h
      refine ⟨h4, h2.trans h5, h6.trans ⟨?_, ?_⟩⟩
      · rintro ⟨n, hn, hq⟩
        exact ⟨n, List.mem_cons_of_mem _ hn, hq⟩
      · rintro ⟨n, hn, hqn⟩
        rcases List.mem_cons.1 hn with rfl | hn
        · exact absurd (h3.2 hqn) ht
        · exact ⟨n, hn, hqn⟩

/-- No class is below itself. -/
def Acyclic (G : EG) (rank : Nat → Nat) : Prop := ∀ i, ∀ n ∈ G i, ∀ j ∈ n.ch, rank j < rank i

theorem clean_iff {G : EG} {next : Node → List Nat} {ign : Nat → Prop} {k i : Nat} (hne : i ≠ k) (hi : ¬ ign i) :
    CleanC G next ign k i ↔ ∃ n ∈ G i, ∀ j ∈ next n, CleanC G next ign k j := by
  constructor
  · intro h
    cases h with
    | ignored _ h => exact absurd h hi
    | node _ hn ha => exact ⟨_, hn, ha⟩
  · rintro ⟨n, hn, ha⟩
    exact .node hne hn ha

theorem down_exact {G : EG} {rank : Nat → Nat} (hG : Acyclic G rank) {next : Node → List Nat} (hsub : ∀ n, ∀ j ∈ next n, j ∈ n.ch)
    {ignore : List Nat} {k : Nat} : ∀ (fuel : Nat) (m : Memo) (t : Nat) (r : Bool × Memo), Exact (CleanC G next (· ∈ ignore) k) m →
      Above rank (rank t) m → down G next ignore k fuel m t = some r →
      Exact (CleanC G next (· ∈ ignore) k) r.2 ∧ Adds rank (rank t) m r.2 ∧ (r.1 = true ↔ CleanC G next (· ∈ ignore) k t)
  | 0, _, _, _, _, _, h => by cases h
  | fuel + 1, m, t, r, hm, ha, h => by
    have rfl' : Adds rank (rank t) m m := ⟨fun _ h => h, fun _ h => .inl h⟩
    simp only [down] at h
    split at h
    · rename_i e
      cases h
      exact ⟨hm, rfl', by simpa using hm.found t e⟩
    · rename_i e
      exact absurd (ha t e) (Nat.lt_irrefl _)
    · rename_i e
      cases h
      exact ⟨hm, rfl', by simpa using hm.sound t e⟩
    · rename_i hmt
      obtain ⟨q, hq, hr⟩ := Option.map_eq_some_iff.1 h
      subst hr
      have key : Exact (CleanC G next (· ∈ ignore) k) q.2 ∧ (∀ i, i ≠ t → q.2 i = some .searching → m i = some .searching) ∧
          (∀ i, i ≠ t → q.2 i ≠ none → m i ≠ none ∨ rank i ≤ rank t) ∧ (q.1 = true ↔ CleanC G next (· ∈ ignore) k t) := by
        split at hq
        · rename_i e
          cases hq
          refine ⟨hm, fun _ _ h => h, fun _ _ h => .inl h, ?_⟩
          constructor
          · exact fun e => (nomatch e)
          · intro hc
            cases hc with
            | ignored hne _ => exact absurd e hne
            | node hne _ _ => exact absurd e hne
        rename_i hne
        split at hq
        · rename_i hig
          cases hq
          exact ⟨hm, fun _ _ h => h, fun _ _ h => .inl h, fun _ => .ignored hne hig, fun _ => rfl⟩
        · rename_i hig
          rw [clean_iff hne hig]
          rcases Nat.eq_zero_or_pos (rank t) with h0 | hpos
          · have hnil : ∀ n ∈ G t, next n = [] := fun n hn =>
              List.eq_nil_iff_forall_not_mem.2 fun j hj => by have := hG t n hn j (hsub n j hj); omega
            have hany : ∀ (l : List Node) (m' : Memo), (∀ n ∈ l, next n = []) →
                anyM (fun m n => allM (down G next ignore k fuel) m (next n)) m' l = some (!l.isEmpty, m') := by
              intro l m' hl
              cases l with
              | nil => rfl
              | cons n ns =>
                simp only [anyM]
                rw [hl n (List.mem_cons_self ..)]
                rfl
            rw [hany (G t) _ hnil] at hq
            cases hq
            refine ⟨hm.insert (fun e => (nomatch e)) (fun e => (nomatch e)), ?_, ?_, ?_⟩
            · intro i hi h
              simpa [Memo.insert, hi] using h
            · intro i hi h
              left
              simpa [Memo.insert, hi] using h
            · cases hgt : G t with
              | nil => simp
              | cons n ns =>
                simp only [List.isEmpty_cons, Bool.not_false, true_iff]
                exact ⟨n, List.mem_cons_self .., by rw [hnil n (by rw [hgt]; exact List.mem_cons_self ..)]; nofun⟩
          · obtain ⟨b, hb⟩ : ∃ b, rank t = b + 1 := ⟨rank t - 1, by omega⟩
            have hins : Above rank b (m.insert t .searching) := by
              intro i hi
              unfold Memo.insert at hi
              split at hi
              · rename_i e; subst e; omega
              · have := ha i hi; omega
            obtain ⟨h1, h2, h3⟩ := anyM_exact (P := CleanC G next (· ∈ ignore) k)
              (Q := fun n => ∀ j ∈ next n, CleanC G next (· ∈ ignore) k j) (rank := rank) (b := b) (G t) (fun n hn m r hm ha h =>
                allM_exact (P := CleanC G next (· ∈ ignore) k) (rank := rank) (b := b)
                  (fun m i r hi hm ha h => by
                    obtain ⟨g1, g2, g3⟩ := down_exact hG hsub fuel m i r hm (fun j hj => Nat.lt_of_le_of_lt hi (ha j hj)) h
                    exact ⟨g1, ⟨g2.srch, fun j hj => (g2.low j hj).imp id (fun e => Nat.le_trans e hi)⟩, g3⟩)
                  (next n) m r (fun j hj => by have := hG t n hn j (hsub n j hj); omega) hm ha h)
              (m.insert t .searching) q (hm.insert (fun e => (nomatch e)) (fun e => (nomatch e))) hins hq
            refine ⟨h1, ?_, ?_, h3⟩
            · intro i hi h
              simpa [Memo.insert, hi] using h2.srch i h
            · intro i hi h
              rcases h2.low i h with h | h
              · left; simpa [Memo.insert, hi] using h
              · right; omega
      refine ⟨key.1.insert ?_ ?_, ⟨?_, ?_⟩, key.2.2.2⟩
      · intro e
        apply key.2.2.2.1
        revert e
        cases q.1 <;> simp [statusOf]
      · intro e hc
        have := key.2.2.2.2 hc
        rw [this] at e
        cases e
      · intro i hi
        unfold Memo.insert at hi
        dsimp only at hi
        split at hi
        · cases hq1 : q.1 <;> simp [hq1, statusOf] at hi
        · rename_i hne
          exact key.2.1 i hne hi
      · intro i hi
        unfold Memo.insert at hi
        dsimp only at hi
        split at hi
        · rename_i e; subst e; exact .inr (Nat.le_refl _)
        · rename_i hne
          exact key.2.2.1 i hne hi

/-- What is established without ignoring is what is established when ignoring a class above. -/
theorem clean_below {G : EG} {rank : Nat → Nat} (hG : Acyclic G rank) {next : Node → List Nat} (hsub : ∀ n, ∀ j ∈ next n, j ∈ n.ch) {c k : Nat}
    {i : Nat} (h : CleanC G next (· ∈ [c]) k i) (hi : rank i < rank c) : CleanC G next (· ∈ ([] : List Nat)) k i := by
  induction h with
  | ignored _ h => rw [List.mem_singleton.1 h] at hi; omega
  | node hne hn ha ih => exact .node hne hn fun j hj => ih j hj (Nat.lt_trans (hG _ _ hn j (hsub _ j hj)) hi)

def Quiet (m : Memo) : Prop := ∀ i, m i ≠ some .searching

def MemosExact (G : EG) (ignore : List Nat) : List Check → List Memo → Prop
  | c :: cs, m :: ms => (Exact (c.Says G (· ∈ ignore)) m ∧ Quiet m) ∧ MemosExact G ignore cs ms
  | [], [] => True
  | _, _ => False

theorem valid_exact {G : EG} {rank : Nat → Nat} (hG : Acyclic G rank) {ignore : List Nat} {fuel : Nat} :
    ∀ (cs : List Check) (_ : ∀ k ∈ cs, ∀ n, ∀ j ∈ k.next n, j ∈ n.ch) (ms : List Memo) (i : Nat) (r : Bool × List Memo),
      MemosExact G ignore cs ms → valid G ignore fuel cs ms i = some r →
      MemosExact G ignore cs r.2 ∧ (r.1 = true ↔ ∀ c ∈ cs, c.Says G (· ∈ ignore) i)
  | [], _, [], i, r, hm, h => by
    simp only [valid] at h
    cases h
    exact ⟨trivial, by simp⟩
  | c :: cs, _, [], _, _, hm, _ => hm.elim
  | [], _, _ :: _, _, _, hm, _ => hm.elim
  | c :: cs, hsub, m :: ms, i, r, hm, h => by
    simp only [valid] at h
    obtain ⟨q, hq, h⟩ := Option.bind_eq_some_iff.1 h
    obtain ⟨h1, h2, h3⟩ := down_exact hG (hsub c (List.mem_cons_self ..)) fuel m i q hm.1.1 (fun j hj => absurd hj (hm.1.2 j)) hq
    have hq2 : Quiet q.2 := fun j hj => hm.1.2 j (h2.srch j hj)
    split at h
    · rename_i ht
      obtain ⟨q', hq', rfl⟩ := Option.map_eq_some_iff.1 h
      obtain ⟨h4, h5⟩ := valid_exact hG cs (fun k hk => hsub k (List.mem_cons_of_mem _ hk)) ms i q' hm.2 hq'
      refine ⟨⟨⟨h1, hq2⟩, h4⟩, ?_⟩
      rw [List.forall_mem_cons, h5]
      exact ⟨fun e => ⟨h3.1 ht, e⟩, fun e => e.2⟩
    · rename_i ht
      cases h
      refine ⟨⟨⟨h1, hq2⟩, hm.2⟩, ?_⟩
      rw [List.forall_mem_cons]
      exact ⟨fun e => (nomatch e), fun e => absurd (h3.2 e.1) ht⟩

theorem siblings_exact {G : EG} {rank : Nat → Nat} (hG : Acyclic G rank) {ignore : List Nat} {fuel : Nat} {cs : List Check}
    (hsub : ∀ k ∈ cs, ∀ n, ∀ j ∈ k.next n, j ∈ n.ch) {id : Nat} : ∀ (l : List Nat) (ms : List Memo) (r : Bool × List Memo),
      MemosExact G ignore cs ms → siblings G ignore fuel cs id ms l = some r →
      MemosExact G ignore cs r.2 ∧ (r.1 = true ↔ ∀ s ∈ l, s ≠ id → ∀ c ∈ cs, c.Says G (· ∈ ignore) s)
  | [], ms, r, hm, h => by
    simp only [siblings] at h
    cases h
    exact ⟨hm, by simp⟩
  | s :: ss, ms, r, hm, h => by
    simp only [siblings] at h
    split at h
    · rename_i he
      obtain ⟨h1, h2⟩ := siblings_exact hG hsub ss ms r hm h
      refine ⟨h1, ?_⟩
      rw [List.forall_mem_cons, h2]
      exact ⟨fun e => ⟨fun hne => absurd he hne, e⟩, fun e => e.2⟩
    · rename_i hne
      obtain ⟨q, hq, h⟩ := Option.bind_eq_some_iff.1 h
      obtain ⟨h1, h2⟩ := valid_exact hG cs hsub ms s q hm hq
      split at h
      · rename_i ht
        obtain ⟨h3, h4⟩ := siblings_exact hG hsub ss q.2 r h1 h
        refine ⟨h3, ?_⟩
        rw [List.forall_mem_cons, h4]
        exact ⟨fun e => ⟨fun _ => h2.1 ht, e⟩, fun e => e.2⟩
      · rename_i ht
        cases h
        refine ⟨h1, ?_⟩
        rw [List.forall_mem_cons]
        exact ⟨fun e => (nomatch e), fun e => absurd (h2.2 (e.1 hne)) ht⟩

theorem checkAll_exact {G : EG} {rank : Nat → Nat} (hG : Acyclic G rank) {fuel : Nat} {i c : Nat} (hic : rank i < rank c) :
    ∀ (cs : List Check) (_ : ∀ k ∈ cs, ∀ n, ∀ j ∈ k.next n, j ∈ n.ch) (r : Bool × List Memo), checkAll G fuel i cs = some r →
      (r.1 = true ↔ ∀ c ∈ cs, c.Says G (fun _ => False) i) ∧ (r.1 = true → MemosExact G [c] cs r.2)
  | [], _, r, h => by
    simp only [checkAll] at h
    cases h
    exact ⟨by simp, fun _ => trivial⟩
  | k :: cs, hsub, r, h => by
    simp only [checkAll] at h
    obtain ⟨q, hq, h⟩ := Option.bind_eq_some_iff.1 h
    have hs := hsub k (List.mem_cons_self ..)
    obtain ⟨h1, h2, h3⟩ := down_exact hG (ignore := []) (k := k.nonce) hs fuel (fun _ => none) i q
      ⟨fun _ h => (nomatch h), fun _ h => (nomatch h)⟩ (fun _ h => (nomatch h)) hq
    have hF : ∀ {j}, CleanC G k.next (· ∈ ([] : List Nat)) k.nonce j ↔ k.Says G (fun _ => False) j := fun {j} =>
      ⟨fun h => h.mono fun _ h => (nomatch h), fun h => h.mono fun _ h => h.elim⟩
    have hm : Exact (k.Says G (· ∈ [c])) q.2 ∧ Quiet q.2 := by
      refine ⟨⟨fun j hj => (h1.sound j hj).mono fun _ h => (nomatch h), fun j hj hc => ?_⟩, fun j hj => (nomatch h2.srch j hj)⟩
      refine h1.found j hj (clean_below hG hs hc ?_)
      rcases h2.low j (by rw [hj]; exact nofun) with h | h
      · exact absurd rfl h
      · omega
    split at h
    · rename_i ht
      obtain ⟨q', hq', rfl⟩ := Option.map_eq_some_iff.1 h
      obtain ⟨h4, h5⟩ := checkAll_exact hG hic cs (fun k hk => hsub k (List.mem_cons_of_mem _ hk)) q' hq'
      refine ⟨?_, fun e => ⟨hm, h5 e⟩⟩
      rw [List.forall_mem_cons, h4]
      exact ⟨fun e => ⟨hF.1 (h3.1 ht), e⟩, fun e => e.2⟩
    · rename_i ht
      cases h
      refine ⟨?_, fun e => (nomatch e)⟩
      rw [List.forall_mem_cons]
      exact ⟨fun e => (nomatch e), fun e => absurd (h3.2 (hF.2 e.1)) ht⟩

def isEquiv (G : EG) (i : Nat) : Bool := (G i).any fun n => n.op = .equiv

/-- One step up, from a class that is not a result. -/
def Step (G : EG) (ignore : List Nat) (cs : List Check) (i p : Nat) : Prop :=
  isEquiv G i = false ∧ ∃ n ∈ G p, i ∈ n.ch ∧ ∀ s ∈ n.ch, s ≠ i → ∀ c ∈ cs, c.Says G (· ∈ ignore) s

def Srch.has (s : Srch) (i : Nat) : Prop := i ∈ s.done ∨ ∃ t, (i, t) ∈ s.todos

theorem push_has {s : Srch} {i : Nat} {t : Tm} : (s.push i t).has i ∧ (∀ j, s.has j → (s.push i t).has j) ∧ (s.push i t).done = s.done ∧
    (s.push i t).memos = s.memos := by
  unfold Srch.push
  split
  · rename_i h
    exact ⟨.inl h, fun _ h => h, rfl, rfl⟩
  · refine ⟨.inr ⟨t, by simp⟩, ?_, rfl, rfl⟩
    rintro j (h | ⟨u, h⟩)
    · exact .inl h
    · by_cases e : j = i
      · exact .inr ⟨t, by simp [e]⟩
      · exact .inr ⟨u, by simp [e, h]⟩

theorem upOnce_exact {G : EG} {rank : Nat → Nat} (hG : Acyclic G rank) {rep : Nat → Tm} {ignore : List Nat} {fuel : Nat} {cs : List Check}
    (hsub : ∀ k ∈ cs, ∀ n, ∀ j ∈ k.next n, j ∈ n.ch) {l : Node} {p i : Nat} {t : Tm} {s s' : Srch} (hm : MemosExact G ignore cs s.memos)
    (h : upOnce G rep ignore fuel cs l p i t s = some s') :
    MemosExact G ignore cs s'.memos ∧ s'.done = s.done ∧ (∀ j, s.has j → s'.has j) ∧
      ((∀ s ∈ l.ch, s ≠ i → ∀ c ∈ cs, c.Says G (· ∈ ignore) s) → s'.has p) := by
  obtain ⟨r, hr, rfl⟩ := Option.map_eq_some_iff.1 h
  obtain ⟨h1, h2⟩ := siblings_exact hG hsub l.ch s.memos r hm hr
  dsimp only
  split
  · obtain ⟨g1, g2, g3, g4⟩ := push_has (s := { s with memos := r.2 }) (i := p)
      (t := .app l.op (l.ch.map fun j => if j = i then t else rep j))
    exact ⟨by rw [g4]; exact h1, g3, g2, fun _ => g1⟩
  · rename_i ht
    exact ⟨h1, rfl, fun _ h => h, fun e => absurd (h2.2 e) ht⟩

theorem ups_exact {G : EG} {rank : Nat → Nat} (hG : Acyclic G rank) {rep : Nat → Tm} {ignore : List Nat} {fuel : Nat} {cs : List Check}
    (hsub : ∀ k ∈ cs, ∀ n, ∀ j ∈ k.next n, j ∈ n.ch) {i : Nat} {t : Tm} : ∀ (ps : List (Node × Nat)) (s s' : Srch),
    MemosExact G ignore cs s.memos → ups G rep ignore fuel cs i t ps s = some s' →
    MemosExact G ignore cs s'.memos ∧ s'.done = s.done ∧ (∀ j, s.has j → s'.has j) ∧
      ∀ q ∈ ps, (∀ s ∈ q.1.ch, s ≠ i → ∀ c ∈ cs, c.Says G (· ∈ ignore) s) → s'.has q.2
  | [], s, s', hm, h => by simp only [ups] at h; cases h; exact ⟨hm, rfl, fun _ h => h, nofun⟩
  | (l, p) :: ps, s, s', hm, h => by
    simp only [ups] at h
    obtain ⟨q, hq, h⟩ := Option.bind_eq_some_iff.1 h
    obtain ⟨h1, h2, h3, h4⟩ := upOnce_exact hG hsub hm hq
    obtain ⟨g1, g2, g3, g4⟩ := ups_exact hG hsub ps q s' h1 h
    exact ⟨g1, g2.trans h2, fun j hj => g3 j (h3 j hj), List.forall_mem_cons.2 ⟨fun e => g3 _ (h4 e), g4⟩⟩

/-- What was treated was treated completely. -/
def Closed (G : EG) (ignore : List Nat) (cs : List Check) (s : Srch) : Prop := ∀ i ∈ s.done, ∀ p, Step G ignore cs i p → s.has p

theorem run_exact {G : EG} {rank : Nat → Nat} (hG : Acyclic G rank) {rep : Nat → Tm} {parents : Nat → List (Node × Nat)}
    (hpar : ∀ i p, ∀ n ∈ G p, i ∈ n.ch → (n, p) ∈ parents i) {order : List (Nat × Tm) → List (Nat × Tm)} (hord : ∀ l, ∀ p ∈ order l, p ∈ l)
    (hne : ∀ l, l ≠ [] → order l ≠ []) {ignore : List Nat} {dfuel : Nat} {cs : List Check} (hsub : ∀ k ∈ cs, ∀ n, ∀ j ∈ k.next n, j ∈ n.ch) :
    ∀ (fuel : Nat) (s : Srch) (res : List (Nat × Tm)), MemosExact G ignore cs s.memos → Closed G ignore cs s →
      run G rep parents order ignore dfuel cs fuel s = some res →
      ∃ D : Nat → Prop, (∀ i, s.has i → D i) ∧ (∀ i p, D i → Step G ignore cs i p → D p) ∧
        ∀ i, D i → isEquiv G i = true → i ∈ s.done ∨ ∃ t, (i, t) ∈ res
  | 0, _, _, _, _, h => by cases h
  | fuel + 1, s, res, hm, hcl, h => by
    simp only [run] at h
    split at h
    · rename_i ho
      cases h
      have ht : s.todos = [] := by_contra fun e => hne _ e ho
      have hd : ∀ i, s.has i → i ∈ s.done := by
        rintro i (h | ⟨t, h⟩)
        · exact h
        · rw [ht] at h; cases h
      exact ⟨fun i => i ∈ s.done, hd, fun i p hi hs => hd p (hcl i hi p hs), fun i hi _ => .inl hi⟩
    · rename_i i t rest ho
      have hmem : (i, t) ∈ s.todos := hord s.todos (i, t) (by rw [ho]; exact List.mem_cons_self ..)
      have keep : ∀ j, s.has j → Srch.has { s with todos := s.todos.filter (fun p => p.1 ≠ i), done := i :: s.done } j := by
        rintro j (h | ⟨u, h⟩)
        · exact .inl (List.mem_cons_of_mem _ h)
        · by_cases e : j = i
          · exact .inl (by simp [e])
          · exact .inr ⟨u, by simp [e, h]⟩
      split at h
      · rename_i heq
        obtain ⟨res', hr, rfl⟩ := Option.map_eq_some_iff.1 h
        obtain ⟨D, h1, h2, h3⟩ := run_exact hG hpar hord hne hsub fuel _ res' (by exact hm) (by
          intro j hj p hs
          rcases List.mem_cons.1 hj with rfl | hj
          · have := hs.1
            unfold isEquiv at this
            rw [this] at heq
            cases heq
          · exact keep p (hcl j hj p hs)) hr
        refine ⟨D, fun j hj => h1 j (keep j hj), h2, ?_⟩
        intro j hj he
        rcases h3 j hj he with h | ⟨u, h⟩
        · rcases List.mem_cons.1 h with rfl | h
          · exact .inr ⟨t, List.mem_cons_self ..⟩
          · exact .inl h
        · exact .inr ⟨u, List.mem_cons_of_mem _ h⟩
      · rename_i hnq
        obtain ⟨s'', hu, h⟩ := Option.bind_eq_some_iff.1 h
        obtain ⟨g1, g2, g3, g4⟩ := ups_exact hG hsub (parents i) _ s'' (by exact hm) hu
        obtain ⟨D, h1, h2, h3⟩ := run_exact hG hpar hord hne hsub fuel s'' res g1 (by
          intro j hj p hs
          rw [g2] at hj
          rcases List.mem_cons.1 hj with rfl | hj
          · obtain ⟨_, n, hn, hi, hs⟩ := hs
            exact g4 (n, p) (hpar _ p n hn hi) hs
          · exact g3 p (keep p (hcl j hj p hs))) h
        refine ⟨D, fun j hj => h1 j (g3 j (keep j hj)), h2, ?_⟩
        intro j hj he
        rcases h3 j hj he with h | h
        · rw [g2] at h
          rcases List.mem_cons.1 h with rfl | h
          · unfold isEquiv at he
            exact absurd he hnq
          · exact .inl h
        · exact .inr h

/-- A class reached from `c` through nodes whose other children pass the checks, and through no result. -/
inductive Reaches (G : EG) (ignore : List Nat) (cs : List Check) (c : Nat) : Nat → Prop
  | here : Reaches G ignore cs c c
  | up {i p} (h : Reaches G ignore cs c i) (hs : Step G ignore cs i p) : Reaches G ignore cs c p

/-- **C70 (IND-CCA2, what is found; partial).** When no class is below itself and the order omits nothing, every `equiv`
that is reached from an encryption by nodes whose other children pass the checks is reported. Missing: e-graphs with
cycles, which the rules create, and for which this is false (`C70_cycle_counterexample`). -/
theorem C70_cca_complete_partial {N : Nat} {G : EG} {rep : Nat → Tm} (hW : WF N G rep) {rank : Nat → Nat} (hG : Acyclic G rank)
    {parents : Nat → List (Node × Nat)} (hpar : ∀ i, ∀ p ∈ parents i, p.1 ∈ G p.2 ∧ i ∈ p.1.ch)
    (hpar' : ∀ i p, ∀ n ∈ G p, i ∈ n.ch → (n, p) ∈ parents i) {order : List (Nat × Tm) → List (Nat × Tm)} (hord : ∀ l, ∀ p ∈ order l, p ∈ l)
    (hne : ∀ l, l ≠ [] → order l ≠ []) {I : Inst} (hI : Matched G I) (hkr : I.k ≠ I.r) (hk : isNonce G I.k = true) (hr : isNonce G I.r = true)
    (hm : CleanC G (nextKey I.k) (fun _ => False) I.k I.m) (hm' : CleanC G nextRand (fun _ => False) I.r I.m) :
    ∃ res, indCca G rep parents order (N + 1) (N + 1) I = some res ∧
      ∀ p, Reaches G [I.c] [⟨nextKey I.k, I.k⟩, ⟨nextRand, I.r⟩] I.c p → isEquiv G p = true → ∃ t, (p, t) ∈ res := by
  obtain ⟨⟨res, h⟩, _⟩ := C70_ends hW hpar hord hI 0
  refine ⟨res, h, ?_⟩
  obtain ⟨q, hq, _⟩ := hI.node
  have hrank : rank I.m < rank I.c := hG _ _ hq _ (by simp)
  have hsub : ∀ k ∈ [(⟨nextKey I.k, I.k⟩ : Check), ⟨nextRand, I.r⟩], ∀ n, ∀ j ∈ k.next n, j ∈ n.ch :=
    List.forall_mem_cons.2 ⟨sub_key _, List.forall_mem_singleton.2 sub_rand⟩
  unfold indCca at h
  rw [if_neg hkr, hk, hr] at h
  simp only [Bool.and_self, Bool.not_true, Bool.false_eq_true, ↓reduceIte] at h
  obtain ⟨r, hr', h⟩ := Option.bind_eq_some_iff.1 h
  obtain ⟨h1, h2⟩ := checkAll_exact hG hrank _ hsub r hr'
  have ht : r.1 = true := h1.2 (List.forall_mem_cons.2 ⟨hm, List.forall_mem_singleton.2 hm'⟩)
  rw [if_pos ht] at h
  obtain ⟨D, d1, d2, d3⟩ := run_exact hG hpar' hord hne hsub _ _ res (h2 ht) (by intro i hi; cases hi) h
  intro p hp he
  have : D p := by
    clear he
    induction hp with
    | here => exact d1 _ (.inr ⟨_, List.mem_singleton_self _⟩)
    | up _ hs ih => exact d2 _ _ ih hs
  rcases d3 p this he with h | h
  · cases h
  · exact h

/-- **C70 (ENC-KP, what is found; partial).** -/
theorem C70_kp_complete_partial {N : Nat} {G : EG} {rep : Nat → Tm} (hW : WF N G rep) {rank : Nat → Nat} (hG : Acyclic G rank)
    {parents : Nat → List (Node × Nat)} (hpar : ∀ i, ∀ p ∈ parents i, p.1 ∈ G p.2 ∧ i ∈ p.1.ch)
    (hpar' : ∀ i p, ∀ n ∈ G p, i ∈ n.ch → (n, p) ∈ parents i) {order : List (Nat × Tm) → List (Nat × Tm)} (hord : ∀ l, ∀ p ∈ order l, p ∈ l)
    (hne : ∀ l, l ≠ [] → order l ≠ []) {I : Inst} (hI : Matched G I) {nk : Nat} (hkn : I.k ≠ nk) (hkr : I.k ≠ I.r)
    (hk : isNonce G I.k = true) (hr : isNonce G I.r = true)
    (hm : ∀ c ∈ [(⟨nextKpKey I.k, I.k⟩ : Check), ⟨nextKpKey nk, nk⟩, ⟨nextKpRand, I.r⟩], c.Says G (fun _ => False) I.m) :
    ∃ res, encKp G rep parents order (N + 1) (N + 1) I nk = some res ∧
      ∀ p, Reaches G [I.c] [⟨nextKpRand, I.r⟩, ⟨nextKpKey I.k, I.k⟩, ⟨nextKpKey nk, nk⟩] I.c p → isEquiv G p = true → ∃ t, (p, t) ∈ res := by
  obtain ⟨_, res, h⟩ := C70_ends hW hpar hord hI nk
  refine ⟨res, h, ?_⟩
  obtain ⟨q, hq, _⟩ := hI.node
  have hrank : rank I.m < rank I.c := hG _ _ hq _ (by simp)
  have hsub : ∀ k ∈ [(⟨nextKpKey I.k, I.k⟩ : Check), ⟨nextKpKey nk, nk⟩, ⟨nextKpRand, I.r⟩], ∀ n, ∀ j ∈ k.next n, j ∈ n.ch :=
    List.forall_mem_cons.2 ⟨sub_kpKey _, List.forall_mem_cons.2 ⟨sub_kpKey _, List.forall_mem_singleton.2 sub_kpRand⟩⟩
  have hsub' : ∀ k ∈ [(⟨nextKpRand, I.r⟩ : Check), ⟨nextKpKey I.k, I.k⟩, ⟨nextKpKey nk, nk⟩], ∀ n, ∀ j ∈ k.next n, j ∈ n.ch :=
    List.forall_mem_cons.2 ⟨sub_kpRand, List.forall_mem_cons.2 ⟨sub_kpKey _, List.forall_mem_singleton.2 (sub_kpKey _)⟩⟩
  unfold encKp at h
  rw [if_neg hkn, if_neg hkr, hk, hr] at h
  simp only [Bool.and_self, Bool.not_true, Bool.false_eq_true, ↓reduceIte] at h
  obtain ⟨r, hr', h⟩ := Option.bind_eq_some_iff.1 h
  obtain ⟨h1, h2⟩ := checkAll_exact hG hrank _ hsub r hr'
  have ht : r.1 = true := h1.2 hm
  rw [if_pos ht] at h
  have h2' : MemosExact G [I.c] [⟨nextKpRand, I.r⟩, ⟨nextKpKey I.k, I.k⟩, ⟨nextKpKey nk, nk⟩] (rot r.2) := by
    have := h2 ht
    revert this
    match r.2 with
    | [] | [_] | [_, _] | _ :: _ :: _ :: _ :: _ => intro h; simp [MemosExact] at h
    | [a, b, c] => intro h; exact ⟨h.2.2.1, h.1, h.2.1, trivial⟩
  obtain ⟨D, d1, d2, d3⟩ := run_exact hG hpar' hord hne hsub' _ _ res h2' (by intro i hi; cases hi) h
  intro p hp he
  have : D p := by
    clear he
    induction hp with
    | here => exact d1 _ (.inr ⟨_, List.mem_singleton_self _⟩)
    | up _ hs ih => exact d2 _ _ ih hs
  rcases d3 p this he with h | h
  · cases h
  · exact h

end Ind
end CV
