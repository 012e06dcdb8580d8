import Verif.Runner
import Mathlib.Tactic.Tauto
import Mathlib.Tactic.ByContra
/-
Properties C13 (lemma chaining), C16 (verdicts under any schedule), C17 (retries), C18 (exit status),
C48 (quotes).
-/
set_option linter.unusedSimpArgs false
namespace CV
variable {φ : Type}

/-! ## C13 -/

/-- SPEC: the obligation "under `asm`, prove `goal`" as a problem. -/
def IsObligation (asm : List φ) (goal : φ) (p : Pbl φ) : Prop := p.assertions = asm ∧ p.query = goal

/-- SPEC: semantic consequence in a class of models given by `sat`. -/
def Entails {Mod : Type} (sat : Mod → φ → Prop) (asm : List φ) (goal : φ) : Prop :=
  ∀ m, (∀ a ∈ asm, sat m a) → sat m goal

/-- A closure that leaves assertions, lemmas and query of the problem alone (it may add extra
instances, as `autorun` does). -/
def KeepsPbl {σ ε U : Type} (f : σ → Pbl φ → Except ε U × Pbl φ × σ) : Prop :=
  ∀ s p, (f s p).2.1.assertions = p.assertions ∧ (f s p).2.1.lemmas = p.lemmas ∧
    (f s p).2.1.query = p.query

namespace PblIter

theorem mapCollect_lemmas {σ ε U : Type} (f : σ → Pbl φ → Except ε U × Pbl φ × σ) (hf : KeepsPbl f) :
    ∀ (rem : List φ) (fuel : Nat) (s : σ) (it : PblIter φ), it.state = .withLemma →
      it.pbl.lemmas = rem → rem.length + 1 ≤ fuel →
      ∃ r it' s', mapCollect f fuel s it = some (r, it', s') ∧
        match r with
        | .ok us => us.length = rem.length ∧ ∃ (ss : Nat → σ) (ps : Nat → Pbl φ),
            ∀ k q u, rem[k]? = some q → us[k]? = some u →
              IsObligation (it.pbl.assertions ++ (it.pbl.query :: rem).take (k + 1)) q (ps k) ∧
              (f (ss k) (ps k)).1 = .ok u
        | .error e => ∃ k q s p, rem[k]? = some q ∧
            IsObligation (it.pbl.assertions ++ (it.pbl.query :: rem).take (k + 1)) q p ∧
            (f s p).1 = .error e := by
  intro rem
  induction rem with
  | nil =>
    intro fuel s it hs hl hfu
    obtain ⟨n, rfl⟩ : ∃ n, fuel = n + 1 := ⟨fuel - 1, by simp at hfu; omega⟩
    refine ⟨.ok [], { it with state := .done }, s, by simp [mapCollect, next, hs, hl], rfl, fun _ => s, fun _ => it.pbl, ?_⟩
    intro k q u hq; simp at hq
  | cons q0 rem ih =>
    intro fuel s it hs hl hfu
    obtain ⟨n, rfl⟩ : ∃ n, fuel = n + 1 := ⟨fuel - 1, by simp at hfu; omega⟩
    have hn : rem.length + 1 ≤ n := by simp at hfu; omega
    let it1 : PblIter φ := { it with
        pbl := { it.pbl with
          query := q0, lemmas := rem, assertions := it.pbl.assertions ++ [it.pbl.query] } }
    have hnext : next it = (true, it1) := by simp [next, hs, hl, it1]
    have hobl : IsObligation (it.pbl.assertions ++ (it.pbl.query :: q0 :: rem).take 1) q0 it1.pbl := by
      simp [IsObligation, it1]
    rcases hfx : f s it1.pbl with ⟨e | u, p', s'⟩
    · refine ⟨.error e, { it1 with pbl := p' }, s', by simp [mapCollect, hnext, hfx], 0, q0, s, it1.pbl, rfl, hobl, by simp [hfx]⟩
    · have hk := hf s it1.pbl
      rw [hfx] at hk
      obtain ⟨ha, hle, hq⟩ := hk
      obtain ⟨r, it', s'', hrun, hr⟩ := ih n s' { it1 with pbl := p' } hs hle hn
      have hA : p'.assertions ++ p'.query :: rem.take 0 = (it.pbl.assertions ++ [it.pbl.query]) ++ q0 :: [] := by
        rw [ha, hq]; simp [it1]
      cases r with
      | error e =>
        obtain ⟨k, q, s1, p1, h1, h2, h3⟩ := hr
        refine ⟨.error e, it', s'', by simp [mapCollect, hnext, hfx, hrun], k + 1, q, s1, p1, h1, ?_, h3⟩
        simp only [IsObligation] at h2 ⊢
        refine ⟨?_, h2.2⟩
        rw [h2.1]; show p'.assertions ++ (p'.query :: rem).take (k + 1) = _
        rw [ha, hq]; simp [it1]
      | ok us =>
        obtain ⟨hlen, ss, ps, hall⟩ := hr
        refine ⟨.ok (u :: us), it', s'', by simp [mapCollect, hnext, hfx, hrun], by simp [hlen],
          fun k => k.casesOn s ss, fun k => k.casesOn it1.pbl ps, ?_⟩
        intro k q v hq1 hv
        cases k with
        | zero =>
          simp at hq1 hv; subst hq1; subst hv
          exact ⟨hobl, by show (f s it1.pbl).1 = _; rw [hfx]⟩
        | succ k =>
          simp at hq1 hv
          obtain ⟨h1, h2⟩ := hall k q v hq1 hv
          refine ⟨?_, h2⟩
          simp only [IsObligation] at h1 ⊢
          refine ⟨?_, h1.2⟩
          show (ps k).assertions = _
          rw [h1.1]; show p'.assertions ++ (p'.query :: rem).take (k + 1) = _
          rw [ha, hq]; simp [it1]

end PblIter

open PblIter

/-- C13 (the obligations, and termination): running any closure that does not touch assertions, lemmas
and query over the obligations of a problem with lemmas `L` and query `q` ends; if it succeeds, it was
run successfully on exactly `L.length + 1` obligations, the k-th asking for the k-th element of
`L ++ [q]` under the assertions, `true` and exactly the first `k` lemmas; if it fails, it failed on
such an obligation. -/
theorem C13_obligations {σ ε U : Type} (f : σ → Pbl φ → Except ε U × Pbl φ × σ) (hf : KeepsPbl f)
    (tru : φ) (p : Pbl φ) (fuel : Nat) (hfuel : p.lemmas.length + 2 ≤ fuel) (s : σ) :
    ∃ r it' s', mapCollect f fuel s (PblIter.new tru p true) = some (r, it', s') ∧
      match r with
      | .ok us => us.length = p.lemmas.length + 1 ∧ ∃ (ss : Nat → σ) (ps : Nat → Pbl φ),
          ∀ k, k ≤ p.lemmas.length → ∃ q u, (p.lemmas ++ [p.query])[k]? = some q ∧ us[k]? = some u ∧
            IsObligation (p.assertions ++ tru :: p.lemmas.take k) q (ps k) ∧ (f (ss k) (ps k)).1 = .ok u
      | .error e => ∃ k q s p', (p.lemmas ++ [p.query])[k]? = some q ∧
            IsObligation (p.assertions ++ tru :: p.lemmas.take k) q p' ∧ (f s p').1 = .error e := by
  have hT : ∀ k, k ≤ p.lemmas.length →
      (tru :: (p.lemmas ++ [p.query])).take (k + 1) = tru :: p.lemmas.take k := by
    intro k hk
    simp [List.take_append, Nat.sub_eq_zero_of_le hk]
  obtain ⟨r, it', s', hrun, hr⟩ := mapCollect_lemmas f hf (p.lemmas ++ [p.query]) fuel s
    (PblIter.new tru p true) (by simp [PblIter.new]) (by simp [PblIter.new]) (by simp; omega)
  refine ⟨r, it', s', hrun, ?_⟩
  cases r with
  | error e =>
    obtain ⟨k, q, s1, p1, h1, h2, h3⟩ := hr
    have hk : k ≤ p.lemmas.length := by
      have := (List.getElem?_eq_some_iff.1 h1).1
      simp at this; omega
    refine ⟨k, q, s1, p1, h1, ?_, h3⟩
    have : (PblIter.new tru p true).pbl.query = tru := by simp [PblIter.new]
    rw [this, hT k hk] at h2
    simpa [PblIter.new] using h2
  | ok us =>
    obtain ⟨hlen, ss, ps, hall⟩ := hr
    refine ⟨by simpa using hlen, ss, ps, ?_⟩
    intro k hk
    have h1 : k < (p.lemmas ++ [p.query]).length := by simp; omega
    have h2 : k < us.length := by rw [hlen]; exact h1
    refine ⟨(p.lemmas ++ [p.query])[k], us[k], List.getElem?_eq_getElem h1, List.getElem?_eq_getElem h2, ?_⟩
    have := hall k _ _ (List.getElem?_eq_getElem h1) (List.getElem?_eq_getElem h2)
    have hq : (PblIter.new tru p true).pbl.query = tru := by simp [PblIter.new]
    rw [hq, hT k hk] at this
    simpa [PblIter.new] using this

/-- C13 (without lemmas): exactly one obligation, the problem as it was parsed. -/
theorem C13_no_lemmas {σ ε U : Type} (f : σ → Pbl φ → Except ε U × Pbl φ × σ) (tru : φ) (p : Pbl φ)
    (fuel : Nat) (hfuel : 2 ≤ fuel) (s : σ) :
    ∃ it', mapCollect f fuel s (PblIter.new tru p false) =
      some ((f s p).1.map (fun u => [u]), it', (f s p).2.2) := by
  obtain ⟨n, rfl⟩ : ∃ n, fuel = n + 1 + 1 := ⟨fuel - 2, by omega⟩
  rcases h : f s p with ⟨e | u, p', s'⟩ <;>
    simp [mapCollect, PblIter.new, next, h, Except.map]

/-- A list of entailments chained by lemmas. -/
theorem chain_entails {Mod : Type} (sat : Mod → φ → Prop) (tru : φ) (htru : ∀ m, sat m tru)
    (A L : List φ) (q : φ)
    (h : ∀ k q', (L ++ [q])[k]? = some q' → Entails sat (A ++ tru :: L.take k) q') : Entails sat A q := by
  intro m hA
  have hL : ∀ k, ∀ a ∈ L.take k, sat m a := by
    intro k
    induction k with
    | zero => simp
    | succ k ih =>
      intro a ha
      by_cases hk : k < L.length
      · rw [List.take_succ_eq_append_getElem hk, List.mem_append] at ha
        rcases ha with ha | ha
        · exact ih a ha
        · simp at ha; subst ha
          refine h k L[k] (by simp [List.getElem?_append, hk]) m ?_
          intro b hb
          simp only [List.mem_append, List.mem_cons] at hb
          rcases hb with hb | rfl | hb
          · exact hA b hb
          · exact htru m
          · exact ih b hb
      · rw [List.take_of_length_le (by omega)] at ha ih
        exact ih a ha
  refine h L.length q (by simp) m ?_
  intro b hb
  simp only [List.mem_append, List.mem_cons] at hb
  rcases hb with hb | rfl | hb
  · exact hA b hb
  · exact htru m
  · exact hL _ b hb

/-- C13 (soundness): if a check that only accepts problems whose query follows from its assertions
accepts all obligations of a problem with lemmas, the query follows from the assertions alone. -/
theorem C13_sound {Mod σ ε U : Type} (sat : Mod → φ → Prop) (tru : φ) (htru : ∀ m, sat m tru)
    (f : σ → Pbl φ → Except ε U × Pbl φ × σ) (hf : KeepsPbl f)
    (hsound : ∀ s p u, (f s p).1 = .ok u → Entails sat p.assertions p.query)
    (p : Pbl φ) (lem : Bool) (fuel : Nat) (s : σ) (us : List U) (rest)
    (h : mapCollect f fuel s (PblIter.new tru p lem) = some (.ok us, rest))
    (hfuel : p.lemmas.length + 2 ≤ fuel) :
    Entails sat p.assertions p.query := by
  cases lem with
  | true =>
    obtain ⟨r, it', s', hrun, hr⟩ := C13_obligations f hf tru p fuel hfuel s
    rw [hrun] at h
    simp at h
    obtain ⟨rfl, _⟩ := h
    obtain ⟨_, ss, ps, hall⟩ := hr
    apply chain_entails sat tru htru p.assertions p.lemmas p.query
    intro k q' hq'
    have hk : k ≤ p.lemmas.length := by
      have := (List.getElem?_eq_some_iff.1 hq').1
      simp at this; omega
    obtain ⟨q, u, h1, h2, h3, h4⟩ := hall k hk
    rw [hq'] at h1; cases h1
    rw [← h3.1, ← h3.2]
    exact hsound _ _ _ h4
  | false =>
    obtain ⟨it', hrun⟩ := C13_no_lemmas f tru p fuel (by omega) s
    rw [hrun] at h
    rcases hfx : (f s p).1 with e | u
    · simp [hfx, Except.map] at h
    · exact hsound _ _ _ hfx

/-- C13 (files): writing the obligations of a problem with lemmas to a directory produces files
`0, 1, …, |lemmas|`, the k-th containing the k-th obligation. -/
theorem C13_run_to_dir (tru : φ) (p : Pbl φ) (fuel : Nat) (hfuel : p.lemmas.length + 2 ≤ fuel) :
    ∃ l, runToDir fuel (PblIter.new tru p true) = some l ∧ l.length = p.lemmas.length + 1 ∧
      ∀ k, k ≤ p.lemmas.length → ∃ p' q, l[k]? = some (k, p') ∧ (p.lemmas ++ [p.query])[k]? = some q ∧
        IsObligation (p.assertions ++ tru :: p.lemmas.take k) q p' := by
  have key : ∀ (rem : List φ) (fuel i : Nat) (it : PblIter φ), it.state = .withLemma →
      it.pbl.lemmas = rem → rem.length + 1 ≤ fuel →
      ∃ l r, mapCollect (ε := Empty) (fun i p => (Except.ok (i, p), p, i + 1)) fuel i it = some (.ok l, r) ∧
        l.length = rem.length ∧ ∀ k q, rem[k]? = some q → ∃ p', l[k]? = some (i + k, p') ∧
          IsObligation (it.pbl.assertions ++ (it.pbl.query :: rem).take (k + 1)) q p' := by
    intro rem
    induction rem with
    | nil =>
      intro fuel i it hs hl hfu
      obtain ⟨n, rfl⟩ : ∃ n, fuel = n + 1 := ⟨fuel - 1, by simp at hfu; omega⟩
      exact ⟨[], ({ it with state := .done }, i), by simp [mapCollect, next, hs, hl], rfl, by simp⟩
    | cons q0 rem ih =>
      intro fuel i it hs hl hfu
      obtain ⟨n, rfl⟩ : ∃ n, fuel = n + 1 := ⟨fuel - 1, by simp at hfu; omega⟩
      let it1 : PblIter φ := { it with
        pbl := { it.pbl with
          query := q0, lemmas := rem, assertions := it.pbl.assertions ++ [it.pbl.query] } }
      have hnext : next it = (true, it1) := by simp [next, hs, hl, it1]
      obtain ⟨l, r, h1, h2, h3⟩ := ih n (i + 1) it1 hs rfl (by simp at hfu; omega)
      refine ⟨(i, it1.pbl) :: l, r, ?_, by simp [h2], ?_⟩
      · simp only [mapCollect, hnext]
        rw [show ({ it1 with pbl := it1.pbl } : PblIter φ) = it1 from rfl, h1]
      · intro k q hq
        cases k with
        | zero => simp at hq; subst hq; exact ⟨it1.pbl, by simp, by simp [IsObligation, it1]⟩
        | succ k =>
          simp at hq
          obtain ⟨p', h4, h5⟩ := h3 k q hq
          refine ⟨p', by simp [h4]; omega, ?_⟩
          simp only [IsObligation] at h5 ⊢
          refine ⟨?_, h5.2⟩
          rw [h5.1]; simp [it1]
  obtain ⟨l, r, h1, h2, h3⟩ := key (p.lemmas ++ [p.query]) fuel 0 (PblIter.new tru p true)
    (by simp [PblIter.new]) (by simp [PblIter.new]) (by simp; omega)
  refine ⟨l, by simp [runToDir, h1], by simpa using h2, ?_⟩
  intro k hk
  have hk' : k < (p.lemmas ++ [p.query]).length := by simp; omega
  obtain ⟨p', h4, h5⟩ := h3 k _ (List.getElem?_eq_getElem hk')
  refine ⟨p', (p.lemmas ++ [p.query])[k], by simpa using h4, List.getElem?_eq_getElem hk', ?_⟩
  have hT : (tru :: (p.lemmas ++ [p.query])).take (k + 1) = tru :: p.lemmas.take k := by
    simp [List.take_append, Nat.sub_eq_zero_of_le hk]
  have hq : (PblIter.new tru p true).pbl.query = tru := by simp [PblIter.new]
  rw [hq, hT] at h5
  simpa [PblIter.new] using h5

/-- C13 (single file): a single output file is only ever written in the mode without lemmas, and then
holds the problem itself. -/
theorem C13_run_to_file (tru : φ) (p : Pbl φ) :
    runToFile (PblIter.new tru p false) = some p ∧ runToFile (PblIter.new tru p true) = none := by
  simp [runToFile, PblIter.new, assertOne, next]

/-! ## C16 -/

/-- SPEC: a message that ends a round. -/
def Decisive : Delivery → Prop
  | (_, .ok .sat) => True
  | (_, .ok .unsat) => True
  | (_, .error _) => True
  | _ => False

/-- SPEC: `r` is the first decisive message of `ds`. -/
def FirstDecisive (ds : List Delivery) (r : Delivery) : Prop :=
  ∃ pre post, ds = pre ++ r :: post ∧ (∀ x ∈ pre, ¬ Decisive x) ∧ Decisive r

theorem FirstDecisive.unique {ds : List Delivery} {r r' : Delivery} (h : FirstDecisive ds r)
    (h' : FirstDecisive ds r') : r = r' := by
  obtain ⟨pre, post, rfl, h1, h2⟩ := h
  obtain ⟨pre', post', he, h3, h4⟩ := h'
  induction pre generalizing pre' with
  | nil =>
    cases pre' with
    | nil => simpa using (List.cons.inj he).1
    | cons a pre' =>
      have := (List.cons.inj he).1
      exact absurd (this ▸ h2) (h3 a (by simp))
  | cons a pre ih =>
    cases pre' with
    | nil =>
      have := (List.cons.inj he).1
      exact absurd (this ▸ h4) (h1 a (by simp))
    | cons b pre' =>
      simp only [List.cons_append, List.cons.injEq] at he
      exact ih (fun x hx => h1 x (by simp [hx])) pre' he.2 (fun x hx => h3 x (by simp [hx]))

/-- The texts of timeouts of discoverers, in delivery order. -/
def timeouts (ds : List Delivery) : List (List Char) :=
  ds.filterMap (fun d => match d with
    | (.discoverer, .ok (.timeout t)) => some t
    | _ => none)

theorem receive_none (kill : Except RErr Unit) (ds : List Delivery) (h : ∀ x ∈ ds, ¬ Decisive x)
    (acc : List (List Char)) :
    receive kill acc ds = match kill with | .error e => .error e | .ok _ => .ok (some (acc ++ timeouts ds)) := by
  induction ds generalizing acc with
  | nil => cases kill <;> simp [receive, timeouts]
  | cons d ds ih =>
    have hd := h d (by simp)
    have ih := fun acc => ih (fun x hx => h x (by simp [hx])) acc
    rcases d with ⟨k, e | o⟩
    · exact absurd trivial hd
    · cases o with
      | sat => exact absurd trivial hd
      | unsat => exact absurd trivial hd
      | other => cases k <;> (simp only [receive]; rw [ih]; cases kill <;> simp [timeouts])
      | timeout t =>
        cases k
        · simp only [receive]; rw [ih]; cases kill <;> simp [timeouts]
        · simp only [receive]; rw [ih]; cases kill <;> simp [timeouts]

theorem receive_first (kill : Except RErr Unit) (ds : List Delivery) (r : Delivery)
    (h : FirstDecisive ds r) (acc : List (List Char)) :
    receive kill acc ds = match kill, r.2 with
      | .error e, _ => .error e
      | .ok _, .ok .unsat => .ok none
      | .ok _, .error e => .error e
      | .ok _, _ => .error .disprove := by
  obtain ⟨pre, post, rfl, h1, h2⟩ := h
  induction pre generalizing acc with
  | nil =>
    rcases r with ⟨k, e | o⟩
    · cases k <;> cases kill <;> simp [receive]
    · cases o with
      | sat => cases k <;> cases kill <;> simp [receive]
      | unsat => cases k <;> cases kill <;> simp [receive]
      | other => exact absurd h2 (by simp [Decisive])
      | timeout t => exact absurd h2 (by cases k <;> simp [Decisive])
  | cons d pre ih =>
    have hd := h1 d (by simp)
    have ih := fun acc => ih acc (fun x hx => h1 x (by simp [hx]))
    rcases d with ⟨k, e | o⟩
    · exact absurd trivial hd
    · cases o with
      | sat => exact absurd trivial hd
      | unsat => exact absurd trivial hd
      | other => cases k <;> (simp only [List.cons_append, receive]; exact ih _)
      | timeout t => cases k <;> (simp only [List.cons_append, receive]; exact ih _)

theorem first_or_none (ds : List Delivery) : (∀ x ∈ ds, ¬ Decisive x) ∨ ∃ r, FirstDecisive ds r := by
  induction ds with
  | nil => left; simp
  | cons d ds ih =>
    by_cases hd : Decisive d
    · right; exact ⟨d, [], ds, rfl, by simp, hd⟩
    · rcases ih with ih | ⟨r, pre, post, he, h1, h2⟩
      · left; intro x hx; rcases List.mem_cons.1 hx with rfl | hx
        · exact hd
        · exact ih x hx
      · right; refine ⟨r, d :: pre, post, by simp [he], ?_, h2⟩
        intro x hx; rcases List.mem_cons.1 hx with rfl | hx
        · exact hd
        · exact h1 x hx

variable (disc : Pbl φ → List Char → Except RErr (Pbl φ))

theorem analyse_ok_ne (p : Pbl φ) (ts : List (List Char)) : ∀ b, (analyse disc p ts).1 = .ok b ↔
    (analyse disc p ts).1 = .ok () := by intro b; cases b; rfl

/-- C16 (one round, success): for every delivery order, a round reports a proof exactly when the first
decisive message is an Unsat answer (and killing the other solvers did not fail). -/
theorem C16_round_proved (kill : Except RErr Unit) (ds : List Delivery) (p : Pbl φ) :
    (autorunMany disc kill ds p).1 = .ok true ↔
      (∃ k, FirstDecisive ds (k, .ok .unsat)) ∧ kill = .ok () := by
  unfold autorunMany
  rcases first_or_none ds with h | ⟨r, h⟩
  · rw [receive_none kill ds h]
    constructor
    · intro he
      cases kill with
      | error e => simp at he
      | ok _ =>
        rw [List.nil_append] at he
        rcases hx : analyse disc p (timeouts ds) with ⟨_ | _, _⟩ <;> simp [hx] at he
    · rintro ⟨⟨k, pre, post, rfl, _, hd⟩, _⟩
      exact absurd hd (h _ (by simp))
  · rw [receive_first kill ds r h]
    constructor
    · intro he
      cases kill with
      | error e => simp at he
      | ok _ =>
        rcases r with ⟨k, e | o⟩
        · simp at he
        · cases o with
          | unsat => exact ⟨⟨k, h⟩, rfl⟩
          | sat => simp at he
          | other => simp at he
          | timeout t => simp at he
    · rintro ⟨⟨k, h'⟩, rfl⟩
      rw [h.unique h']

/-- C16 (one round, disproof): for every delivery order, if killing succeeds and no solver or discovery
step itself returns the error "disproved", a round reports a disproof exactly when the first decisive
message is a Sat answer. -/
theorem C16_round_disproved (ds : List Delivery) (p : Pbl φ)
    (hsolv : ∀ k, (k, .error .disprove) ∉ ds) (hdisc : ∀ p t, disc p t ≠ .error .disprove) :
    (autorunMany disc (.ok ()) ds p).1 = .error .disprove ↔
      ∃ k, FirstDecisive ds (k, .ok .sat) := by
  have han : ∀ ts p, (analyse disc p ts).1 ≠ .error .disprove := by
    intro ts
    induction ts with
    | nil => intro p; simp [analyse]
    | cons t ts ih =>
      intro p
      unfold analyse
      rcases hx : disc p t with e | p'
      · intro he; simp at he; subst he; exact hdisc p t hx
      · exact ih p'
  unfold autorunMany
  rcases first_or_none ds with h | ⟨r, h⟩
  · rw [receive_none _ ds h]
    constructor
    · intro he
      rw [List.nil_append] at he
      rcases hx : analyse disc p (timeouts ds) with ⟨e | _, _⟩
      · simp [hx] at he; subst he
        exact absurd (by rw [hx]) (han (timeouts ds) p)
      · simp [hx] at he
    · rintro ⟨k, pre, post, rfl, _, hd⟩
      exact absurd hd (h _ (by simp))
  · rw [receive_first _ ds r h]
    rcases r with ⟨k, e | o⟩
    · constructor
      · intro he; simp at he; subst he
        obtain ⟨pre, post, rfl, _, _⟩ := h
        exact absurd (by simp) (hsolv k)
      · rintro ⟨k', h'⟩; have := h.unique h'; simp at this
    · cases o with
      | sat => exact ⟨fun _ => ⟨k, h⟩, fun _ => rfl⟩
      | unsat =>
        constructor
        · intro he; simp at he
        · rintro ⟨k', h'⟩; have := h.unique h'; simp at this
      | other => obtain ⟨_, _, _, _, hd⟩ := h; simp [Decisive] at hd
      | timeout t => obtain ⟨_, _, _, _, hd⟩ := h; cases k <;> simp [Decisive] at hd

/-- C16 (one round, errors): an error of a solver delivered before any verdict is what the round
reports. -/
theorem C16_round_error (ds : List Delivery) (p : Pbl φ) (k : RKind) (e : RErr)
    (h : FirstDecisive ds (k, .error e)) : autorunMany disc (.ok ()) ds p = (.error e, p) := by
  unfold autorunMany; rw [receive_first _ ds _ h]

/-- C16 (one round, nothing decisive): the round then is a timeout exactly when every discovery step
succeeds, in particular it never is a verdict. -/
theorem C16_round_undecided (ds : List Delivery) (p : Pbl φ) (h : ∀ x ∈ ds, ¬ Decisive x) :
    autorunMany disc (.ok ()) ds p =
      ((analyse disc p (timeouts ds)).1.map (fun _ => false), (analyse disc p (timeouts ds)).2) := by
  unfold autorunMany; rw [receive_none _ ds h]
  rw [List.nil_append]
  rcases hx : analyse disc p (timeouts ds) with ⟨e | _, p'⟩ <;> simp [hx, Except.map]

/-- A problem with the same logical content. -/
def SameGoal (p q : Pbl φ) : Prop :=
  p.assertions = q.assertions ∧ p.lemmas = q.lemmas ∧ p.query = q.query

/-- The discovery step leaves the logical content of the problem alone. -/
def KeepsGoal (disc : Pbl φ → List Char → Except RErr (Pbl φ)) : Prop :=
  ∀ p t p', disc p t = .ok p' → SameGoal p' p

theorem SameGoal.trans {p q r : Pbl φ} (h : SameGoal p q) (h' : SameGoal q r) : SameGoal p r :=
  ⟨h.1.trans h'.1, h.2.1.trans h'.2.1, h.2.2.trans h'.2.2⟩

theorem analyse_keeps (hk : KeepsGoal disc) (ts : List (List Char)) (p : Pbl φ) :
    SameGoal (analyse disc p ts).2 p := by
  induction ts generalizing p with
  | nil => exact ⟨rfl, rfl, rfl⟩
  | cons t ts ih =>
    unfold analyse
    rcases hx : disc p t with e | p'
    · exact ⟨rfl, rfl, rfl⟩
    · exact (ih p').trans (hk p t p' hx)

theorem autorunMany_keeps (hk : KeepsGoal disc) (kill : Except RErr Unit) (ds : List Delivery)
    (p : Pbl φ) : SameGoal (autorunMany disc kill ds p).2 p := by
  unfold autorunMany
  rcases receive kill [] ds with e | (_ | ts)
  · exact ⟨rfl, rfl, rfl⟩
  · exact ⟨rfl, rfl, rfl⟩
  · have := analyse_keeps disc hk ts p
    rcases hx : analyse disc p ts with ⟨e | _, p'⟩ <;> simpa [hx] using this

theorem rounds_keeps (hk : KeepsGoal disc) (w : World φ) (n : Nat) :
    ∀ todo i p, SameGoal (rounds disc w n todo i p).2 p := by
  intro todo
  induction todo with
  | zero => intro i p; exact ⟨rfl, rfl, rfl⟩
  | succ todo ih =>
    intro i p
    have := autorunMany_keeps disc hk (w i p).2 (w i p).1 p
    simp only [rounds]
    rcases hx : autorunMany disc (w i p).2 (w i p).1 p with ⟨e | b, p'⟩
    · simpa [hx] using this
    · cases b with
      | true => simpa [hx] using this
      | false => rw [hx] at this; exact (ih (i + 1) p').trans this

/-- SPEC: the problem at the start of round `i` (rounds counted from 1), following the world `w` as long
as rounds end undecided. -/
def pblAt (disc : Pbl φ → List Char → Except RErr (Pbl φ)) (w : World φ) (p : Pbl φ) : Nat → Pbl φ
  | 0 => p
  | i + 1 => (autorunMany disc (w (i + 1) (pblAt disc w p i)).2 (w (i + 1) (pblAt disc w p i)).1
      (pblAt disc w p i)).2

/-- SPEC: the outcome of round `i + 1`. -/
def outcomeAt (disc : Pbl φ → List Char → Except RErr (Pbl φ)) (w : World φ) (p : Pbl φ) (i : Nat) :
    Except RErr Bool :=
  (autorunMany disc (w (i + 1) (pblAt disc w p i)).2 (w (i + 1) (pblAt disc w p i)).1
      (pblAt disc w p i)).1

theorem rounds_spec (w : World φ) (n : Nat) (p0 : Pbl φ) : ∀ todo i,
    (∀ j, (rounds disc w n todo (i + 1) (pblAt disc w p0 i)).1 = .ok j ↔
      (∃ k, k < todo ∧ j = i + k + 1 ∧ outcomeAt disc w p0 (i + k) = .ok true ∧
        ∀ l, l < k → outcomeAt disc w p0 (i + l) = .ok false)) := by
  intro todo
  induction todo with
  | zero => intro i j; simp [rounds]
  | succ todo ih =>
    intro i j
    have ih := ih (i + 1) j
    have hout : outcomeAt disc w p0 i = (autorunMany disc (w (i + 1) (pblAt disc w p0 i)).2
      (w (i + 1) (pblAt disc w p0 i)).1 (pblAt disc w p0 i)).1 := rfl
    have hp : pblAt disc w p0 (i + 1) = (autorunMany disc (w (i + 1) (pblAt disc w p0 i)).2
      (w (i + 1) (pblAt disc w p0 i)).1 (pblAt disc w p0 i)).2 := rfl
    simp only [rounds]
    rcases hx : autorunMany disc (w (i + 1) (pblAt disc w p0 i)).2 (w (i + 1) (pblAt disc w p0 i)).1
      (pblAt disc w p0 i) with ⟨e | b, p'⟩
    · rw [hx] at hout
      simp only [reduceCtorEq, false_iff]
      rintro ⟨k, _, _, hk, hl⟩
      cases k with
      | zero => rw [Nat.add_zero, hout] at hk; simp at hk
      | succ k => have := hl 0 (by omega); rw [Nat.add_zero, hout] at this; simp at this
    · rw [hx] at hout hp
      cases b with
      | true =>
        constructor
        · intro he; simp at he; exact ⟨0, by omega, by omega, hout, by simp⟩
        · rintro ⟨k, _, hj, hk, hl⟩
          cases k with
          | zero => simp [hj]
          | succ k => have := hl 0 (by omega); rw [Nat.add_zero, hout] at this; simp at this
      | false =>
        simp only
        rw [show p' = pblAt disc w p0 (i + 1) from hp.symm, ih]
        constructor
        · rintro ⟨k, h1, h2, h3, h4⟩
          refine ⟨k + 1, by omega, by omega, by rw [show i + (k + 1) = i + 1 + k by omega]; exact h3, ?_⟩
          intro l hl
          cases l with
          | zero => exact hout
          | succ l => rw [show i + (l + 1) = i + 1 + l by omega]; exact h4 l (by omega)
        · rintro ⟨k, h1, h2, h3, h4⟩
          cases k with
          | zero => rw [Nat.add_zero, hout] at h3; simp at h3
          | succ k =>
            refine ⟨k, by omega, by omega, by rw [show i + 1 + k = i + (k + 1) by omega]; exact h3, ?_⟩
            intro l hl
            rw [show i + 1 + l = i + (l + 1) by omega]; exact h4 (l + 1) (by omega)

/-- C16/C17 (whole run): the runner reports "proved in `j` tries" exactly when `j` is between 1 and the
number of tries, round `j` was won by an Unsat answer delivered before any other decisive message, and
every earlier round ended undecided. -/
theorem C16_run_proved (nsolvers numRetry : Nat) (w : World φ) (p : Pbl φ) (j : Nat) :
    (autorun disc nsolvers numRetry w p).1 = .ok j ↔
      nsolvers ≠ 0 ∧ 1 ≤ j ∧ j ≤ numRounds numRetry ∧
      ((∃ k, FirstDecisive (w j (pblAt disc w p (j - 1))).1 (k, .ok .unsat)) ∧
        (w j (pblAt disc w p (j - 1))).2 = .ok ()) ∧
      ∀ i, i + 1 < j → outcomeAt disc w p i = .ok false := by
  unfold autorun
  by_cases h0 : nsolvers = 0
  · simp [h0]
  · have := rounds_spec disc w (numRounds numRetry) p (numRounds numRetry) 0 j
    simp only [h0, if_false, Nat.zero_add, pblAt] at this ⊢
    rw [this]
    constructor
    · rintro ⟨k, h1, h2, h3, h4⟩
      subst h2
      refine ⟨h0, by omega, by omega, ?_, ?_⟩
      · exact (C16_round_proved disc _ _ _).1 h3
      · intro i hi; exact h4 i (by omega)
    · rintro ⟨_, h1, h2, h3, h4⟩
      refine ⟨j - 1, by omega, by omega, ?_, ?_⟩
      · unfold outcomeAt
        rw [show j - 1 + 1 = j by omega]
        exact (C16_round_proved disc _ _ _).2 h3
      · intro l hl; exact h4 l (by omega)

/-- C16 (end to end with C13): if whenever a solver answers Unsat on a problem its query follows from
its assertions, then whenever the automatic mode returns without error — with or without lemmas, for
every schedule of every round of every obligation — the user's query follows from the user's
assertions. -/
theorem C16_end_to_end {Mod : Type} (sat : Mod → φ → Prop) (tru : φ) (htru : ∀ m, sat m tru)
    (hk : KeepsGoal disc) (nsolvers numRetry : Nat) (w : Nat → World φ)
    (hsolver : ∀ k i p, (∃ r, (r, .ok .unsat) ∈ (w k i p).1) → Entails sat p.assertions p.query)
    (p : Pbl φ) (lem : Bool) (fuel : Nat) (hfuel : p.lemmas.length + 2 ≤ fuel) (tries : List Nat)
    (h : autoRun disc nsolvers numRetry w fuel (PblIter.new tru p lem) = some (.ok tries)) :
    Entails sat p.assertions p.query := by
  unfold autoRun at h
  rcases hm : mapCollect (fun k p => let r := autorun disc nsolvers numRetry (w k) p; (r.1, r.2, k + 1))
      fuel 0 (PblIter.new tru p lem) with _ | ⟨r, it', s'⟩
  · simp [hm] at h
  · cases r with
    | error e => simp [hm] at h
    | ok us =>
      refine C13_sound sat tru htru _ ?_ ?_ p lem fuel 0 us (it', s') hm hfuel
      · intro s p
        have : SameGoal (autorun disc nsolvers numRetry (w s) p).2 p := by
          unfold autorun; split
          · exact ⟨rfl, rfl, rfl⟩
          · exact rounds_keeps disc hk _ _ _ _ _
        exact this
      · intro s p u hu
        simp only at hu
        obtain ⟨_, _, _, ⟨⟨k, pre, post, hds, _, _⟩, _⟩, _⟩ := (C16_run_proved disc nsolvers numRetry (w s) p u).1 hu
        have hE := hsolver s u _ ⟨k, by rw [hds]; simp⟩
        have hsame : ∀ i, SameGoal (pblAt disc (w s) p i) p := by
          intro i
          induction i with
          | zero => exact ⟨rfl, rfl, rfl⟩
          | succ i ih => exact (autorunMany_keeps disc hk _ _ _).trans ih
        obtain ⟨h1, _, h3⟩ := hsame (u - 1)
        rw [h1, h3] at hE
        exact hE

/-! ## C17 -/

theorem rounds_error (w : World φ) (n : Nat) (p0 : Pbl φ) : ∀ todo i,
    (∀ e, (rounds disc w n todo (i + 1) (pblAt disc w p0 i)).1 = .error e ↔
      (∃ k, k < todo ∧ outcomeAt disc w p0 (i + k) = .error e ∧
        ∀ l, l < k → outcomeAt disc w p0 (i + l) = .ok false) ∨
      (e = .ranOutOfTries n ∧ ∀ l, l < todo → outcomeAt disc w p0 (i + l) = .ok false)) := by
  intro todo
  induction todo with
  | zero => intro i e; simp [rounds, eq_comm]
  | succ todo ih =>
    intro i e
    have ih := ih (i + 1) e
    have hout : outcomeAt disc w p0 i = (autorunMany disc (w (i + 1) (pblAt disc w p0 i)).2
      (w (i + 1) (pblAt disc w p0 i)).1 (pblAt disc w p0 i)).1 := rfl
    have hp : pblAt disc w p0 (i + 1) = (autorunMany disc (w (i + 1) (pblAt disc w p0 i)).2
      (w (i + 1) (pblAt disc w p0 i)).1 (pblAt disc w p0 i)).2 := rfl
    simp only [rounds]
    rcases hx : autorunMany disc (w (i + 1) (pblAt disc w p0 i)).2 (w (i + 1) (pblAt disc w p0 i)).1
      (pblAt disc w p0 i) with ⟨e' | b, p'⟩
    · rw [hx] at hout
      constructor
      · intro he; simp at he; subst he; exact Or.inl ⟨0, by omega, hout, by simp⟩
      · rintro (⟨k, _, hk, hl⟩ | ⟨_, hl⟩)
        · cases k with
          | zero => rw [Nat.add_zero, hout] at hk; simpa using hk
          | succ k => have := hl 0 (by omega); rw [Nat.add_zero, hout] at this; simp at this
        · have := hl 0 (by omega); rw [Nat.add_zero, hout] at this; simp at this
    · rw [hx] at hout hp
      cases b with
      | true =>
        simp only [reduceCtorEq, false_iff]
        rintro (⟨k, _, hk, hl⟩ | ⟨_, hl⟩)
        · cases k with
          | zero => rw [Nat.add_zero, hout] at hk; simp at hk
          | succ k => have := hl 0 (by omega); rw [Nat.add_zero, hout] at this; simp at this
        · have := hl 0 (by omega); rw [Nat.add_zero, hout] at this; simp at this
      | false =>
        simp only
        rw [show p' = pblAt disc w p0 (i + 1) from hp.symm, ih]
        have hshift : ∀ m, (∀ l, l < m → outcomeAt disc w p0 (i + 1 + l) = .ok false) ↔
            (∀ l, l < m + 1 → outcomeAt disc w p0 (i + l) = .ok false) := by
          intro m
          constructor
          · intro h l hl
            cases l with
            | zero => exact hout
            | succ l => rw [show i + (l + 1) = i + 1 + l by omega]; exact h l (by omega)
          · intro h l hl
            rw [show i + 1 + l = i + (l + 1) by omega]; exact h (l + 1) (by omega)
        constructor
        · rintro (⟨k, h1, h3, h4⟩ | ⟨h1, h2⟩)
          · exact Or.inl ⟨k + 1, by omega, by rw [show i + (k + 1) = i + 1 + k by omega]; exact h3, (hshift k).1 h4⟩
          · exact Or.inr ⟨h1, (hshift todo).1 h2⟩
        · rintro (⟨k, h1, h3, h4⟩ | ⟨h1, h2⟩)
          · cases k with
            | zero => rw [Nat.add_zero, hout] at h3; simp at h3
            | succ k =>
              exact Or.inl ⟨k, by omega, by rw [show i + 1 + k = i + (k + 1) by omega]; exact h3, (hshift k).2 h4⟩
          · exact Or.inr ⟨h1, (hshift todo).2 h2⟩

/-- C17 (bound, and what a failure means): with at least one solver, the runner returns an error exactly
when either some round, among the first `numRounds`, returned that error after only undecided rounds,
or all `numRounds` rounds were undecided and the error says so. Together with `C16_run_proved` this
pins the number of rounds. -/
theorem C17_failure (nsolvers numRetry : Nat) (hs : nsolvers ≠ 0) (w : World φ) (p : Pbl φ) (e : RErr) :
    (autorun disc nsolvers numRetry w p).1 = .error e ↔
      (∃ k, k < numRounds numRetry ∧ outcomeAt disc w p k = .error e ∧
        ∀ l, l < k → outcomeAt disc w p l = .ok false) ∨
      (e = .ranOutOfTries (numRounds numRetry) ∧
        ∀ l, l < numRounds numRetry → outcomeAt disc w p l = .ok false) := by
  have := rounds_error disc w (numRounds numRetry) p (numRounds numRetry) 0 e
  simpa [autorun, hs, pblAt] using this

/-- C17 (bound): the run does not depend on what the world would do after the last allowed round. -/
theorem C17_bounded (nsolvers numRetry : Nat) (w w' : World φ) (p : Pbl φ)
    (h : ∀ i p, i ≤ numRounds numRetry → w i p = w' i p) :
    autorun disc nsolvers numRetry w p = autorun disc nsolvers numRetry w' p := by
  have key : ∀ n todo i p, i + todo = n + 1 → (∀ j p, j ≤ n → w j p = w' j p) →
      ∀ m, rounds disc w m todo i p = rounds disc w' m todo i p := by
    intro n todo
    induction todo with
    | zero => intros; rfl
    | succ todo ih =>
      intro i p hi hw m
      simp only [rounds]
      rw [hw i p (by omega)]
      split
      · rfl
      · rfl
      · exact ih _ _ (by omega) hw m
  unfold autorun
  split
  · rfl
  · exact key (numRounds numRetry) _ 1 p (by omega) h _

/-- C17 (zero means "as many as fit"): a retry count of 0 is not zero rounds. -/
theorem C17_zero_retries : numRounds 0 = 4294967295 ∧ ∀ n, n ≠ 0 → numRounds n = n := by
  constructor
  · decide
  · intro n hn; simp [numRounds, hn]

variable [DecidableEq φ]

theorem extendExtra_spec (extra new : List φ) :
    (∃ l, (extendExtra extra new).1 = extra ++ l ∧ (extendExtra extra new).2 = l.length ∧
      (∀ x ∈ l, x ∉ extra)) ∧
    (∀ x, x ∈ (extendExtra extra new).1 ↔ x ∈ extra ∨ x ∈ new) := by
  have key : ∀ (new acc : List φ), (∃ l, acc = extra ++ l ∧ ∀ x ∈ l, x ∉ extra) →
      (∃ l, new.foldl (fun acc x => if x ∈ acc then acc else acc ++ [x]) acc = extra ++ l ∧
        ∀ x ∈ l, x ∉ extra) ∧
      ∀ x, x ∈ new.foldl (fun acc x => if x ∈ acc then acc else acc ++ [x]) acc ↔ x ∈ acc ∨ x ∈ new := by
    intro new
    induction new with
    | nil => intro acc h; exact ⟨h, by simp⟩
    | cons y new ih =>
      intro acc h
      obtain ⟨l, rfl, hl⟩ := h
      simp only [List.foldl_cons]
      by_cases hy : y ∈ extra ++ l
      · simp only [hy, if_true]
        obtain ⟨h1, h2⟩ := ih (extra ++ l) ⟨l, rfl, hl⟩
        refine ⟨h1, fun x => ?_⟩
        rw [h2]
        constructor
        · rintro (h | h)
          · exact Or.inl h
          · exact Or.inr (by simp [h])
        · rintro (h | h)
          · exact Or.inl h
          · rcases List.mem_cons.1 h with rfl | h
            · exact Or.inl hy
            · exact Or.inr h
      · simp only [hy, if_false]
        have hy' : y ∉ extra := fun h => hy (by simp [h])
        obtain ⟨h1, h2⟩ := ih (extra ++ l ++ [y]) ⟨l ++ [y], by simp, by
          intro x hx; rcases List.mem_append.1 hx with hx | hx
          · exact hl x hx
          · simp at hx; subst hx; exact hy'⟩
        refine ⟨h1, fun x => ?_⟩
        rw [h2]; simp only [List.mem_append, List.mem_singleton, List.mem_cons, List.not_mem_nil]; tauto
  obtain ⟨⟨l, h1, h2⟩, h3⟩ := key new extra ⟨[], by simp, by simp⟩
  refine ⟨⟨l, h1, ?_, h2⟩, h3⟩
  simp only [extendExtra, h1, List.length_append]; omega

/-- C17 (a discovery step): it succeeds exactly when the solver output contains an instance that is
not known yet; it then adds exactly the instances found (renamed apart by `shift`) and nothing else;
and it leaves assertions, lemmas and query alone. Otherwise the error is "no new instances". -/
theorem C17_discover (search : List Char → List φ) (shift : Pbl φ → φ → φ) (p : Pbl φ) (t : List Char) :
    ((∃ x ∈ search t, shift p x ∉ p.extra) →
      ∃ p', discover search shift p t = .ok p' ∧ SameGoal p' p ∧
        (∀ x, x ∈ p'.extra ↔ x ∈ p.extra ∨ ∃ y ∈ search t, x = shift p y) ∧
        p.extra.length < p'.extra.length) ∧
    ((∀ x ∈ search t, shift p x ∈ p.extra) → discover search shift p t = .error .noNewInstances) := by
  obtain ⟨⟨l, h1, h2, h3⟩, h4⟩ := extendExtra_spec p.extra ((search t).map (shift p))
  constructor
  · rintro ⟨x, hx, hne⟩
    have hsne : search t ≠ [] := by intro h; rw [h] at hx; simp at hx
    have hl : l ≠ [] := by
      rintro rfl
      have := (h4 (shift p x)).2 (Or.inr (List.mem_map_of_mem hx))
      rw [h1] at this; simp at this; exact hne this
    have hlen : l.length ≠ 0 := by simpa using hl
    refine ⟨{ p with extra := (extendExtra p.extra ((search t).map (shift p))).1 }, ?_, ⟨rfl, rfl, rfl⟩, ?_, ?_⟩
    · simp [discover, hsne, h2, hlen]
    · intro y; rw [h4]; simp only [List.mem_map, eq_comm]
    · simp only [h1, List.length_append]; omega
  · intro hall
    have hl : l = [] := by
      cases l with
      | nil => rfl
      | cons y l =>
        have hy : y ∈ (extendExtra p.extra ((search t).map (shift p))).1 := by rw [h1]; simp
        rcases (h4 y).1 hy with h | h
        · exact absurd h (h3 y (by simp))
        · obtain ⟨x, hx, rfl⟩ := List.mem_map.1 h
          exact absurd (hall x hx) (h3 _ (by simp))
    unfold discover
    by_cases hs : search t = []
    · simp [hs]
    · simp [hs, h2, hl]

theorem discover_keeps (search : List Char → List φ) (shift : Pbl φ → φ → φ) :
    KeepsGoal (discover search shift) := by
  intro p t p' h
  simp only [discover] at h
  split at h
  · simp at h
  · split at h
    · simp at h
    · simp at h; subst h; exact ⟨rfl, rfl, rfl⟩

theorem analyse_grows (search : List Char → List φ) (shift : Pbl φ → φ → φ) (ts : List (List Char)) :
    ∀ p, (analyse (discover search shift) p ts).1 = .ok () →
      p.extra.length + ts.length ≤ (analyse (discover search shift) p ts).2.extra.length ∧
      ∀ x ∈ p.extra, x ∈ (analyse (discover search shift) p ts).2.extra := by
  induction ts with
  | nil => intro p _; simp [analyse]
  | cons t ts ih =>
    intro p h
    obtain ⟨h1, h2⟩ := C17_discover search shift p t
    by_cases hx : ∃ x ∈ search t, shift p x ∉ p.extra
    · obtain ⟨p', hd, _, hmem, hlen⟩ := h1 hx
      simp only [analyse, hd] at h ⊢
      obtain ⟨h5, h6⟩ := ih p' h
      refine ⟨by simp only [List.length_cons]; omega, fun x hx => h6 x ((hmem x).2 (Or.inl hx))⟩
    · have := h2 (by intro x hx'; by_contra hc; exact hx ⟨x, hx', hc⟩)
      simp [analyse, this] at h

/-- C17 (progress): if a round ends undecided, every known instance is kept and at least one new
instance was learnt for each discoverer that timed out in this round. -/
theorem C17_progress (search : List Char → List φ) (shift : Pbl φ → φ → φ) (kill : Except RErr Unit)
    (ds : List Delivery) (p : Pbl φ)
    (h : (autorunMany (discover search shift) kill ds p).1 = .ok false) :
    p.extra.length + (timeouts ds).length ≤
        (autorunMany (discover search shift) kill ds p).2.extra.length ∧
      (∀ x ∈ p.extra, x ∈ (autorunMany (discover search shift) kill ds p).2.extra) ∧
      SameGoal (autorunMany (discover search shift) kill ds p).2 p := by
  refine ⟨?_, ?_, autorunMany_keeps _ (discover_keeps search shift) _ _ _⟩ <;>
  · have hnd : ∀ x ∈ ds, ¬ Decisive x := by
      rcases first_or_none ds with hn | ⟨r, hf⟩
      · exact hn
      · exfalso
        unfold autorunMany at h
        rw [receive_first kill ds r hf] at h
        cases kill with
        | error e => simp at h
        | ok _ =>
          rcases r with ⟨k, e | o⟩
          · simp at h
          · cases o <;> simp at h
    cases kill with
    | error e => unfold autorunMany at h; rw [receive_none _ ds hnd] at h; simp at h
    | ok u =>
      cases u
      rw [C16_round_undecided _ ds p hnd] at h ⊢
      have : (analyse (discover search shift) p (timeouts ds)).1 = .ok () := by
        rcases hx : (analyse (discover search shift) p (timeouts ds)).1 with e | u
        · rw [hx] at h; simp [Except.map] at h
        · rfl
      first
        | exact (analyse_grows search shift _ p this).1
        | exact (analyse_grows search shift _ p this).2

omit [DecidableEq φ] in
/-- C17 (the other side): a round in which no discoverer timed out and nothing was decisive (e.g. only
z3 is enabled and answers "unknown") leaves the problem untouched, so the next round repeats it. -/
theorem C17_no_discoverer_no_progress (ds : List Delivery) (p : Pbl φ)
    (h : ∀ x ∈ ds, ¬ Decisive x) (ht : timeouts ds = []) :
    autorunMany disc (.ok ()) ds p = (.ok false, p) := by
  rw [C16_round_undecided disc ds p h, ht]; rfl

omit [DecidableEq φ] in
/-- C17 (consequence): if in every round all messages are undecided answers of plain runners, the very
same problem is submitted in each of the `numRounds` rounds. -/
theorem C17_plain_runner_repeats (nsolvers numRetry : Nat) (hs : nsolvers ≠ 0) (w : World φ) (p : Pbl φ)
    (hw : ∀ i q, (∀ x ∈ (w i q).1, ¬ Decisive x) ∧ timeouts (w i q).1 = [] ∧ (w i q).2 = .ok ()) :
    (∀ i, pblAt disc w p i = p) ∧
    (autorun disc nsolvers numRetry w p).1 = .error (.ranOutOfTries (numRounds numRetry)) := by
  have hr : ∀ i, autorunMany disc (w (i + 1) p).2 (w (i + 1) p).1 p = (.ok false, p) := by
    intro i
    obtain ⟨h1, h2, h3⟩ := hw (i + 1) p
    rw [h3]; exact C17_no_discoverer_no_progress disc _ _ h1 h2
  have hp : ∀ i, pblAt disc w p i = p := by
    intro i
    induction i with
    | zero => rfl
    | succ i ih => simp only [pblAt, ih, hr]
  refine ⟨hp, (C17_failure disc nsolvers numRetry hs w p _).2 (Or.inr ⟨rfl, fun l _ => ?_⟩)⟩
  simp only [outcomeAt, hp, hr]

/-! ## C18 -/

/-- C18 (vampire): read as a proof exactly on exit code 0, as a timeout exactly on exit code 1, never as
a disproof; a killed process is "other"; any other code is an error. -/
theorem C18_vampire (e : Exit) :
    (vampireDecide e = .ok .unsat ↔ ∃ out, e = .success out 0) ∧
    (∀ t, vampireDecide e = .ok (.timeout t) ↔ e = .success t 1) ∧
    (vampireDecide e = .ok .other ↔ ∃ out, e = .killed out) ∧
    vampireDecide e ≠ .ok .sat ∧
    (∀ r, vampireDecide e = .error r ↔ ∃ out c, e = .success out c ∧ c ≠ 0 ∧ c ≠ 1 ∧ r = .unexpected c) := by
  cases e with
  | killed o => simp [vampireDecide]
  | success o c =>
    by_cases h0 : c = 0
    · subst h0; simp [vampireDecide]
    · by_cases h1 : c = 1
      · subst h1; simp [vampireDecide]
      · refine ⟨by simp [vampireDecide, h0, h1], by simp [vampireDecide, h0, h1],
          by simp [vampireDecide, h0, h1], by simp [vampireDecide, h0, h1], fun r => ?_⟩
        simp only [vampireDecide, h0, h1, if_false]
        constructor
        · intro h; simp at h; exact ⟨o, c, rfl, h0, h1, h.symm⟩
        · rintro ⟨o', c', he, _, _, rfl⟩; cases he; rfl

/-- C18 (vampire, what is not looked at): the verdict does not depend on the output text. If the prover
exits with 0 after printing anything else (e.g. a saturation / "Satisfiable" report), it is counted as
a proof. -/
theorem C18_vampire_output_ignored (out : List Char) : vampireDecide (.success out 0) = .ok .unsat := rfl

/-- SPEC: `line` is the last line of `s`: what stands between the last-but-one newline (or the start) and
the end, not counting one final newline. -/
def LastLine (s line : List Char) : Prop :=
  '\n' ∉ line ∧ ∃ pre, (pre = [] ∨ ∃ p, pre = p ++ ['\n']) ∧
    (s = pre ++ line ++ ['\n'] ∨ (s = pre ++ line ∧ line ≠ []))

/-- SPEC: `s` is `w` surrounded by white space. -/
def Padded (w s : List Char) : Prop :=
  ∃ a b, s = a ++ w ++ b ∧ (∀ c ∈ a, isWs c = true) ∧ (∀ c ∈ b, isWs c = true)

theorem linesAux_no_nl (l : List Char) (h : '\n' ∉ l) : ∀ acc,
    linesAux acc l = (if acc = [] ∧ l = [] then [] else [acc.reverse ++ l]) ∧
    linesAux acc (l ++ ['\n']) = [acc.reverse ++ l] := by
  induction l with
  | nil => intro acc; by_cases ha : acc = [] <;> simp [linesAux, ha]
  | cons c l ih =>
    intro acc
    have hc : c ≠ '\n' := fun hc => h (by simp [hc])
    obtain ⟨h1, h2⟩ := ih (fun hl => h (by simp [hl])) (c :: acc)
    simp [linesAux, hc, h1, h2]

theorem linesAux_skip (rest : List Char) (hr : rest ≠ []) (p : List Char) : ∀ acc,
    (linesAux acc (p ++ '\n' :: rest)).getLast? = (linesAux [] rest).getLast? := by
  have hne : ∀ (s acc : List Char), acc ≠ [] ∨ s ≠ [] → linesAux acc s ≠ [] := by
    intro s
    induction s with
    | nil => intro acc h; simp at h; simp [linesAux, h]
    | cons c s ih =>
      intro acc _
      unfold linesAux
      split
      · simp
      · exact ih _ (Or.inl (by simp))
  induction p with
  | nil =>
    intro acc
    simp only [List.nil_append, linesAux, if_true]
    obtain ⟨a, l, hl⟩ := List.exists_cons_of_ne_nil (hne rest [] (Or.inr hr))
    rw [hl]; simp [List.getLast?_cons]
  | cons c p ih =>
    intro acc
    simp only [List.cons_append, linesAux]
    split
    · have := hne (p ++ '\n' :: rest) [] (Or.inr (by simp))
      obtain ⟨a, l, hl⟩ := List.exists_cons_of_ne_nil this
      rw [← ih [], hl]; simp [List.getLast?_cons]
    · exact ih _

theorem lines_of_lastLine {s l : List Char} (h : LastLine s l) : (lines s).getLast? = some l := by
  obtain ⟨hn, pre, hpre, hs⟩ := h
  have key : ∀ rest, rest ≠ [] → (lines (pre ++ rest)).getLast? = (linesAux [] rest).getLast? := by
    intro rest hr
    rcases hpre with rfl | ⟨p, rfl⟩
    · rfl
    · simpa [lines] using linesAux_skip rest hr p []
  rcases hs with rfl | ⟨rfl, hne⟩
  · rw [List.append_assoc, key _ (by simp), (linesAux_no_nl l hn []).2]; simp
  · rw [key _ hne, (linesAux_no_nl l hn []).1]; simp [hne]

theorem exists_split (t : List Char) : ∃ pre line, t = pre ++ line ∧ '\n' ∉ line ∧
    (pre = [] ∨ ∃ p, pre = p ++ ['\n']) := by
  induction t with
  | nil => exact ⟨[], [], rfl, by simp, Or.inl rfl⟩
  | cons c t ih =>
    obtain ⟨pre, line, rfl, h1, h2 | ⟨p, rfl⟩⟩ := ih
    · subst h2
      by_cases hc : c = '\n'
      · subst hc; exact ⟨['\n'], line, rfl, h1, Or.inr ⟨[], rfl⟩⟩
      · exact ⟨[], c :: line, rfl, by simp [h1, Ne.symm hc], Or.inl rfl⟩
    · exact ⟨c :: (p ++ ['\n']), line, rfl, h1, Or.inr ⟨c :: p, rfl⟩⟩

theorem exists_lastLine {s : List Char} (hs : s ≠ []) : ∃ l, LastLine s l := by
  obtain ⟨t, c, rfl⟩ : ∃ t c, s = t ++ [c] := ⟨s.dropLast, s.getLast hs, (List.dropLast_concat_getLast hs).symm⟩
  obtain ⟨pre, line, rfl, h1, h2⟩ := exists_split t
  by_cases hc : c = '\n'
  · subst hc; exact ⟨line, h1, pre, h2, Or.inl rfl⟩
  · exact ⟨line ++ [c], by simp [h1, Ne.symm hc], pre, h2, Or.inr ⟨by simp, by simp⟩⟩

/-- The computed last line is the last line. -/
theorem lines_getLast_iff (s l : List Char) : (lines s).getLast? = some l ↔ LastLine s l := by
  constructor
  · intro h
    have hs : s ≠ [] := by rintro rfl; simp [lines, linesAux] at h
    obtain ⟨l', hl'⟩ := exists_lastLine hs
    rw [lines_of_lastLine hl'] at h; cases h; exact hl'
  · exact lines_of_lastLine

theorem dropWhile_all {a : List Char} (b : List Char) (h : ∀ c ∈ a, isWs c = true) :
    (a ++ b).dropWhile isWs = b.dropWhile isWs := by
  induction a with
  | nil => rfl
  | cons x a ih => simp [h x (by simp), ih (fun c hc => h c (by simp [hc]))]

theorem dropWhile_decomp (s : List Char) : ∃ a, s = a ++ s.dropWhile isWs ∧ ∀ c ∈ a, isWs c = true :=
  by
  induction s with
  | nil => exact ⟨[], rfl, by simp⟩
  | cons x s ih =>
    by_cases hx : isWs x = true
    · obtain ⟨a, h1, h2⟩ := ih
      refine ⟨x :: a, ?_, ?_⟩
      · rw [List.dropWhile_cons_of_pos hx, List.cons_append, ← h1]
      · intro c hc; rcases List.mem_cons.1 hc with rfl | hc
        · exact hx
        · exact h2 c hc
    · exact ⟨[], by simp [hx], by simp⟩

/-- Trimming yields the word `w` exactly when the text is `w` padded with white space. -/
theorem trim_iff (w s : List Char) (hw : w ≠ []) (hnw : ∀ c ∈ w, isWs c = false) :
    trim s = w ↔ Padded w s := by
  constructor
  · intro h
    obtain ⟨a, ha, ha'⟩ := dropWhile_decomp s
    obtain ⟨b, hb, hb'⟩ := dropWhile_decomp (s.dropWhile isWs).reverse
    refine ⟨a, b.reverse, ?_, ha', fun c hc => hb' c (by simpa using hc)⟩
    have : (s.dropWhile isWs) = w ++ b.reverse := by
      have := congrArg List.reverse hb
      rw [List.reverse_reverse, List.reverse_append] at this
      rw [this]; simp only [trim] at h; rw [h]
    rw [List.append_assoc, ← this]; exact ha
  · rintro ⟨a, b, rfl, ha, hb⟩
    have h1 : ∀ (u v : List Char), u ≠ [] → (∀ c ∈ u, isWs c = false) → (u ++ v).dropWhile isWs = u ++ v := by
      intro u v hu hc
      cases u with
      | nil => exact absurd rfl hu
      | cons x u => simp [hc x (by simp)]
    unfold trim
    rw [List.append_assoc, dropWhile_all _ ha, h1 w b hw hnw, List.reverse_append,
      dropWhile_all _ (by simpa using hb)]
    have := h1 w.reverse [] (by simpa using hw) (by simpa using hnw)
    rw [List.append_nil] at this
    rw [this, List.reverse_reverse]

/-- SPEC: the last line of `s` is the word `w`, up to white space around it. -/
def LastLineIs (s : List Char) (w : String) : Prop := ∃ l, LastLine s l ∧ Padded w.toList l

theorem z3_word (s : List Char) (w : String) (hw : w.toList ≠ []) (hnw : ∀ c ∈ w.toList, isWs c = false) :
    LastLineIs s w ↔ ∃ l, (lines s).getLast? = some l ∧ trim l = w.toList := by
  unfold LastLineIs
  apply exists_congr; intro l
  rw [lines_getLast_iff, trim_iff _ _ hw hnw]

/-- C18 (z3): read as a proof exactly when the process exits with 0 and the last line of its output is
the word `unsat`; as a disproof exactly when it exits with 0 and the last line is `sat`. -/
theorem C18_z3 (e : Exit) :
    (z3Decide e = .ok .unsat ↔ ∃ out, e = .success out 0 ∧ LastLineIs out "unsat") ∧
    (z3Decide e = .ok .sat ↔ ∃ out, e = .success out 0 ∧ LastLineIs out "sat") := by
  have hu : ("unsat".toList ≠ [] ∧ ∀ c ∈ "unsat".toList, isWs c = false) := by decide
  have hs : ("sat".toList ≠ [] ∧ ∀ c ∈ "sat".toList, isWs c = false) := by decide
  cases e with
  | killed o => simp [z3Decide]
  | success o c =>
    by_cases h0 : c = 0
    · subst h0
      simp only [z3Decide, if_true, Exit.success.injEq, and_true, exists_eq_left']
      rw [z3_word o _ hu.1 hu.2, z3_word o _ hs.1 hs.2]
      rcases hl : (lines o).getLast? with _ | l
      · simp
      · simp only [Option.some.injEq, exists_eq_left']
        by_cases h1 : trim l = "unsat".toList
        · simp only [h1, if_true]
          have : "unsat".toList ≠ "sat".toList := by decide
          simp
        · by_cases h2 : trim l = "sat".toList
          · simp only [h2, if_true]
            have : "sat".toList ≠ "unsat".toList := by decide
            simp
          · simp only [h1, h2, if_false]
            split <;> simp
    · simp [z3Decide, h0]

/-- C18 (z3, everything else): a killed process is "other", a non-zero exit code or an empty output is an
error, and other text is a timeout or "other". -/
theorem C18_z3_rest (e : Exit) :
    (∀ o, e = .killed o → z3Decide e = .ok .other) ∧
    (∀ o c, e = .success o c → c ≠ 0 → z3Decide e = .error (.unexpected c)) ∧
    (e = .success [] 0 → z3Decide e = .error .noOutput) ∧
    (∀ r, z3Decide e = .error r → e = .success [] 0 ∨ ∃ o c, e = .success o c ∧ c ≠ 0) := by
  refine ⟨by rintro o rfl; rfl, by rintro o c rfl h; simp [z3Decide, h],
    by rintro rfl; simp [z3Decide, lines, linesAux], ?_⟩
  intro r h
  cases e with
  | killed o => simp [z3Decide] at h
  | success o c =>
    by_cases h0 : c = 0
    · subst h0
      left
      by_cases ho : o = []
      · rw [ho]
      · obtain ⟨l, hl⟩ := exists_lastLine ho
        rw [z3Decide, if_pos rfl, lines_of_lastLine hl] at h
        simp only at h
        split at h
        · simp at h
        · split at h
          · simp at h
          · split at h <;> simp at h
    · exact Or.inr ⟨o, c, rfl, h0⟩

/-- C18 (signals): a process that dies from a signal is never read as a verdict by either solver. -/
theorem C18_killed (out : List Char) :
    vampireDecide (execCmd out none) = .ok .other ∧ z3Decide (execCmd out none) = .ok .other :=
  ⟨rfl, rfl⟩

-- non-vacuity
example : LastLineIs "(warning)\n unsat \r\n".toList "unsat" :=
  ⟨" unsat \r".toList, ⟨by decide, "(warning)\n".toList, Or.inr ⟨"(warning)".toList, rfl⟩, Or.inl rfl⟩,
    [' '], [' ', '\r'], rfl, by decide, by decide⟩
example : z3Decide (.success "(warning)\n unsat \r\n".toList 0) = .ok .unsat := by rfl
example : z3Decide (.success "unsat\n(error)\n".toList 0) = .ok .other := by rfl

/-! ## C48 -/

theorem byteLen_append (a b : List Char) : byteLen (a ++ b) = byteLen a + byteLen b := by
  simp [byteLen]

theorem length_le_byteLen (s : List Char) : s.length ≤ byteLen s := by
  induction s with
  | nil => simp [byteLen]
  | cons c s ih =>
    have := Char.utf8Size_pos c
    simp only [byteLen, List.map_cons, List.sum_cons, List.length_cons] at ih ⊢; omega

theorem byteLen_eq_length_iff (s : List Char) : byteLen s = s.length ↔ ∀ c ∈ s, c.utf8Size = 1 := by
  induction s with
  | nil => simp [byteLen]
  | cons c s ih =>
    have h1 := Char.utf8Size_pos c
    have h2 := length_le_byteLen s
    simp only [byteLen, List.map_cons, List.sum_cons, List.length_cons, List.forall_mem_cons] at ih h2 ⊢
    rw [← ih]; omega

/-- C48: a quoted name is unquoted faithfully exactly when all its characters are single-byte. -/
theorem C48_quoted_iff_partial (checked : Bool) (s : List Char) :
    trimQuotes checked ('\'' :: (s ++ ['\''])) = some s ↔ ∀ c ∈ s, c.utf8Size = 1 := by
  have hlast : (('\'' : Char) :: (s ++ ['\''])).getLast? = some '\'' := by
    exact List.getLast?_concat (l := '\'' :: s)
  have hlen : byteLen ('\'' :: (s ++ ['\''])) = byteLen s + 2 := by
    rw [← List.cons_append, byteLen_append]
    have h1 : byteLen ['\''] = 1 := by decide
    have : byteLen ('\'' :: s) = 1 + byteLen s := by
      rw [show ('\'' :: s) = ['\''] ++ s from rfl, byteLen_append, h1]
    omega
  unfold trimQuotes
  simp only [hlast, and_self, if_true, hlen]
  rw [if_neg (by omega), Nat.add_sub_cancel, ← byteLen_eq_length_iff]
  have h2 := length_le_byteLen s
  constructor
  · intro h
    simp only [Option.some.injEq] at h
    by_contra hne
    have : s.length < byteLen s := by omega
    have hl := congrArg List.length h
    simp at hl; omega
  · intro h; rw [h]; simp

/-- C48: a string that is not quoted is left alone. -/
theorem C48_unquoted (checked : Bool) (s : List Char)
    (h : s.head? ≠ some '\'' ∨ s.getLast? ≠ some '\'') : trimQuotes checked s = some s := by
  cases s with
  | nil => rfl
  | cons c rest =>
    simp only [trimQuotes]
    rw [if_neg]
    rintro ⟨rfl, h2⟩
    rcases h with h | h
    · simp at h
    · exact h h2

/-- C48: the only string on which the function can panic is the single quote, and it does so with
overflow checks on. -/
theorem C48_panics_iff (checked : Bool) (s : List Char) :
    trimQuotes checked s = none ↔ checked = true ∧ s = ['\''] := by
  cases s with
  | nil => simp [trimQuotes]
  | cons c rest =>
    simp only [trimQuotes]
    by_cases h : c = '\'' ∧ (c :: rest).getLast? = some '\''
    · rw [if_pos h]
      obtain ⟨rfl, h2⟩ := h
      have hb : byteLen ('\'' :: rest) < 2 ↔ rest = [] := by
        have h1 : byteLen ['\''] = 1 := by decide
        rw [show ('\'' :: rest) = ['\''] ++ rest from rfl, byteLen_append, h1]
        have h3 := length_le_byteLen rest
        constructor
        · intro h; exact List.length_eq_zero_iff.1 (by omega)
        · rintro rfl; decide
      by_cases hr : rest = []
      · subst hr; cases checked <;> simp [hb]
      · simp [hb, hr]
    · rw [if_neg h]
      simp only [reduceCtorEq, false_iff]
      rintro ⟨_, hs⟩
      cases hs
      exact h ⟨rfl, rfl⟩

/-- C48 (counterexample): a quoted name with a two-byte character keeps its closing quote, and a single
quote panics in a debug build. -/
theorem C48_counterexample : trimQuotes false "'é'".toList = some "é'".toList ∧
    trimQuotes true "'".toList = none := by decide

/-! ## Non-vacuity -/

namespace RunnerEx
/-- Formulas are numbers; a model says which are true; 0 is always true; 7 follows from 5. -/
def Mod := { m : Nat → Prop // m 0 ∧ (m 5 → m 7) ∧ (m 7 → m 9) }
def sat (m : Mod) (a : Nat) : Prop := m.1 a
/-- Assertion 5, lemma 7, query 9. -/
def p : Pbl Nat := { assertions := [5], lemmas := [7], query := 9, extra := [] }
/-- Vampire times out in round 1 with an output that has an instance; in round 2 an "other" answer
arrives before z3's Unsat. -/
def w : Nat → World Nat := fun _ i q =>
  if (q.query = 7 ∧ 5 ∈ q.assertions) ∨ (q.query = 9 ∧ 7 ∈ q.assertions) then
    if i = 1 then ([(.discoverer, .ok (.timeout [Char.ofNat (100 + q.query)])), (.runner, .ok .other)], .ok ())
    else ([(.discoverer, .ok .other), (.runner, .ok .unsat)], .ok ())
  else ([], .ok ())
def exDisc := discover (φ := Nat) (fun t => t.map Char.toNat) (fun _ x => x)

example : autoRun exDisc 2 5 w 5 (PblIter.new 0 p true) = some (.ok [2, 2]) := by rfl
example : KeepsGoal exDisc := discover_keeps _ _
example : ∀ k i q, (∃ r, (r, .ok .unsat) ∈ (w k i q).1) → Entails sat q.assertions q.query := by
  intro k i q ⟨r, hr⟩ m hm
  unfold w at hr
  split at hr
  · rename_i h
    rcases h with ⟨h1, h2⟩ | ⟨h1, h2⟩
    · rw [h1]; exact m.2.2.1 (hm 5 h2)
    · rw [h1]; exact m.2.2.2 (hm 7 h2)
  · simp at hr
/-- A Sat answer delivered first wins over an Unsat answer delivered second. -/
example : FirstDecisive [(.runner, .ok .other), (.runner, .ok .sat), (.discoverer, .ok .unsat)]
    (.runner, .ok .sat) :=
  ⟨[(.runner, .ok .other)], [(.discoverer, .ok .unsat)], rfl, by simp [Decisive], trivial⟩
example : (autorunMany exDisc (.ok ())
    [(.runner, .ok .other), (.runner, .ok .sat), (.discoverer, .ok .unsat)] p).1 = .error .disprove := by rfl
example : (autorunMany exDisc (.ok ()) [(.discoverer, .ok (.timeout ['a']))] p).1 = .ok false := by rfl
/-- The same timeout text twice: the second discovery step finds nothing new. -/
example : (autorunMany exDisc (.ok ()) [(.discoverer, .ok (.timeout ['a']))]
    { p with extra := [97] }).1 = .error .noNewInstances := by rfl
end RunnerEx

end CV
