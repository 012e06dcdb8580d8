import Verif.Container
import Mathlib.Order.Compare
import Mathlib.Order.Nat
set_option linter.unusedSimpArgs false
/-
C43: deferred objects are initialised exactly once; comparison of references.
-/
namespace CV
namespace Cont

variable {α : Type}

/-! ## Specification -/

/-- How many objects a history allocates. -/
def allocs : List (Cmd α) → Nat
  | [] => 0
  | .init _ _ :: l => allocs l
  | _ :: l => allocs l + 1

/-- The first content a history gives to object number `p`, when `n` objects exist already: the content it was allocated with, or
else the content of the first initialisation after its allocation. -/
def firstContent (p : Nat) : Nat → List (Cmd α) → Option α
  | _, [] => none
  | n, .uninit :: l => firstContent p (n + 1) l
  | n, .inner a :: l => if p = n then some a else firstContent p (n + 1) l
  | n, .init q a :: l => if p = q ∧ p < n then some a else firstContent p n l

/-! ## Lemmas -/

theorem content_alloc (h : Heap α) (c : Option α) (p : Nat) : content (alloc c h).2 p = if p = h.length then c else content h p := by
  simp only [alloc, content]
  by_cases e : p = h.length
  · subst e; simp
  · rw [if_neg e]
    by_cases hlt : p < h.length
    · rw [List.getElem?_append_left hlt]
    · rw [List.getElem?_eq_none (by simp; omega), List.getElem?_eq_none (by omega)]

theorem content_none {h : Heap α} {p : Nat} (hp : h.length ≤ p) : content h p = none := by
  simp [content, List.getElem?_eq_none hp]

theorem initWith_of_none {h : Heap α} {p : Nat} {a : α} (e : content h p = none) : initWith p a h = some (h.set p (some a)) := by
  simp [initWith, isValid, e]

theorem initWith_of_some {h : Heap α} {p : Nat} {a b : α} (e : content h p = some b) : initWith p a h = none := by
  simp [initWith, isValid, e]

theorem initWith_some {h h' : Heap α} {p : Nat} {a : α} (e : initWith p a h = some h') :
    content h p = none ∧ h' = h.set p (some a) := by
  cases hc : content h p with
  | some x => rw [initWith_of_some hc] at e; cases e
  | none => rw [initWith_of_none hc] at e; exact ⟨rfl, (Option.some.inj e).symm⟩

theorem content_set (h : Heap α) (p q : Nat) (a : α) : content (h.set p (some a)) q = if q = p ∧ p < h.length then some a else content h q := by
  simp only [content, List.getElem?_set]
  by_cases e : p = q
  · subst e
    by_cases hlt : p < h.length
    · simp [hlt]
    · simp [hlt]
  · rw [if_neg e, if_neg (fun k => e k.1.symm)]

theorem step_length (h : Heap α) (c : Cmd α) : (step h c).length = h.length + allocs [c] := by
  cases c with
  | uninit => simp [step, allocUninit, alloc, allocs]
  | inner a => simp [step, allocInner, alloc, allocs]
  | init p a =>
    simp only [step, allocs, Nat.add_zero]
    cases e : initWith p a h with
    | none => rfl
    | some h' => obtain ⟨-, rfl⟩ := initWith_some e; simp

theorem content_step (h : Heap α) (c : Cmd α) (p : Nat) :
    content (step h c) p = (content h p).or (firstContent p h.length [c]) := by
  cases c with
  | uninit =>
    simp only [step, allocUninit, content_alloc, firstContent, Option.or_none]
    split
    · next e => rw [content_none (Nat.le_of_eq e.symm)]
    · rfl
  | inner a =>
    simp only [step, allocInner, content_alloc, firstContent]
    split
    · next e => rw [content_none (Nat.le_of_eq e.symm)]; rfl
    · simp
  | init q a =>
    simp only [step, firstContent]
    cases e : initWith q a h with
    | none =>
      simp only [Option.getD_none]
      split
      · next k =>
        obtain ⟨rfl, -⟩ := k
        cases hc : content h p with
        | none => rw [initWith_of_none hc] at e; cases e
        | some x => rfl
      · simp
    | some h' =>
      obtain ⟨h1, rfl⟩ := initWith_some e
      simp only [Option.getD_some, content_set]
      by_cases k : p = q ∧ q < h.length
      · obtain ⟨rfl, k⟩ := k
        simp [k, h1]
      · rw [if_neg k, if_neg (fun k' : p = q ∧ p < h.length => k ⟨k'.1, k'.1 ▸ k'.2⟩)]
        simp

theorem firstContent_cons (p n : Nat) (c : Cmd α) (l : List (Cmd α)) :
    firstContent p n (c :: l) = (firstContent p n [c]).or (firstContent p (n + allocs [c]) l) := by
  cases c with
  | uninit => simp [firstContent, allocs]
  | inner a => simp only [firstContent, allocs]; split <;> simp
  | init q a => simp only [firstContent, allocs]; split <;> simp

theorem content_run (h : Heap α) (l : List (Cmd α)) (p : Nat) :
    content (run h l) p = (content h p).or (firstContent p h.length l) := by
  induction l generalizing h with
  | nil => simp [run, firstContent]
  | cons c l ih =>
    rw [show run h (c :: l) = run (step h c) l from rfl, ih, content_step, step_length, firstContent_cons p h.length c l, Option.or_assoc]

theorem run_length (h : Heap α) (l : List (Cmd α)) : (run h l).length = h.length + allocs l := by
  induction l generalizing h with
  | nil => simp [run, allocs]
  | cons c l ih =>
    rw [show run h (c :: l) = run (step h c) l from rfl, ih, step_length]
    cases c <;> simp only [allocs] <;> omega

/-! ## C43 -/

/-- **C43**: after any use of a container, an object holds the first content it was given, whatever initialisations were
attempted later; it has none, and reading it is an error, exactly when it was never given one. -/
theorem C43_first_content (l : List (Cmd α)) (p : Nat) : read (run [] l) p = firstContent p 0 l := by
  rw [read, content_run]
  simp [content]

example : read (run [] [Cmd.uninit, .inner 5, .init 0 1, .init 0 2, .init 1 3, .uninit, .init 7 9]) 0 = some 1 ∧
    read (run [] [Cmd.uninit, .inner 5, .init 0 1, .init 0 2, .init 1 3, .uninit, .init 7 9]) 1 = some 5 ∧
    read (run [] [Cmd.uninit, .inner 5, .init 0 1, .init 0 2, .init 1 3, .uninit, .init 7 9]) 2 = none := by decide

/-- **C43**: an object is initialised at most once. Initialising an allocated object succeeds iff it holds nothing yet, it then
holds exactly the given content and every other object is unchanged, and every later attempt, after any further use of the
container, is refused and changes nothing. -/
theorem C43_once (l m : List (Cmd α)) (p : Nat) (hp : p < allocs l) (a b : α) :
    ((∃ h, initWith p a (run [] l) = some h) ↔ read (run [] l) p = none) ∧
    ∀ h, initWith p a (run [] l) = some h →
      read h p = some a ∧ (∀ q, q ≠ p → read h q = read (run [] l) q) ∧
      initWith p b (run h m) = none ∧ step (run h m) (.init p b) = run h m ∧ read (run h m) p = some a := by
  have hlen : p < (run [] l : Heap α).length := by rw [run_length]; simpa using hp
  constructor
  · cases e : content (run [] l) p with
    | none => simp [initWith_of_none e, read, e]
    | some x => simp [initWith_of_some e, read, e]
  · intro h e
    obtain ⟨h1, rfl⟩ := initWith_some e
    have h2 : content ((run [] l).set p (some a)) p = some a := by simp [content_set, hlen]
    have h3 : content (run ((run [] l).set p (some a)) m) p = some a := by rw [content_run, h2]; rfl
    have h4 : initWith p b (run ((run [] l).set p (some a)) m) = none := initWith_of_some h3
    refine ⟨h2, fun q hq => by simp [read, content_set, hq], h4, by simp [step, h4], h3⟩

example : (1 : Nat) < allocs [Cmd.uninit, .uninit, .init 0 'x'] ∧
    initWith 1 'y' (run [] [Cmd.uninit, .uninit, .init 0 'x']) = some [some 'x', some 'y'] := by decide

/-- **C43**: pointers are never handed out twice, and an allocation changes no other object. -/
theorem C43_alloc (h : Heap α) (c : Option α) (l : List (Cmd α)) :
    (alloc c h).1 ∉ List.range h.length ∧ (∀ c', (alloc c' (run (alloc c h).2 l)).1 ≠ (alloc c h).1) ∧
    content (alloc c h).2 (alloc c h).1 = c ∧ ∀ q, q ≠ (alloc c h).1 → content (alloc c h).2 q = content h q := by
  refine ⟨by simp [alloc], fun c' e => ?_, ?_, fun q hq => ?_⟩
  · have : (run (alloc c h).2 l).length = h.length := e
    rw [run_length] at this
    simp [alloc] at this
    omega
  · rw [content_alloc]; simp [alloc]
  · rw [content_alloc, if_neg]; exact hq

theorem evolve_some {h : Heap α} {l : List (Cmd α)} {p : Nat} {a : α} (e : content h p = some a) : content (run h l) p = some a := by
  rw [content_run, e]; rfl

/-- **C43**: an object whose content refers to itself. When the callback uses the container in any way, the allocation succeeds
iff the callback does and did not initialise the new object itself; then the object holds what the callback gave, and
all objects that held something hold the same. -/
theorem C43_cyclic {ρ : Type} (f : Nat → Heap α → Option (α × ρ) × Heap α) (cs : Nat → List (Cmd α))
    (hf : ∀ p h, (f p h).2 = run h (cs p)) (h : Heap α) :
    (∀ p r h', allocCyclic f h = .ok (p, r) h' ↔ p = h.length ∧
      ∃ a, (f p (h ++ [none])).1 = some (a, r) ∧ content (run (h ++ [none]) (cs p)) p = none ∧
        h' = (run (h ++ [none]) (cs p)).set p (some a)) ∧
    ∀ p r h', allocCyclic f h = .ok (p, r) h' →
      (∃ a, (f p (h ++ [none])).1 = some (a, r) ∧ read h' p = some a) ∧
      ∀ q b, read h q = some b → read h' q = some b := by
  have key : ∀ p r h', allocCyclic f h = .ok (p, r) h' ↔ p = h.length ∧
      ∃ a, (f p (h ++ [none])).1 = some (a, r) ∧ content (run (h ++ [none]) (cs p)) p = none ∧
        h' = (run (h ++ [none]) (cs p)).set p (some a) := by
    intro p r h'
    simp only [allocCyclic, allocUninit, alloc]
    have e2 := hf h.length (h ++ [none])
    cases e : f h.length (h ++ [none]) with
    | mk o hh =>
      rw [e] at e2
      simp only at e2
      subst e2
      cases o with
      | none =>
        simp only [reduceCtorEq, false_iff]
        rintro ⟨rfl, a, ha, -⟩
        rw [e] at ha; cases ha
      | some x =>
        obtain ⟨a, r'⟩ := x
        simp only
        cases e3 : initWith h.length a (run (h ++ [none]) (cs h.length)) with
        | none =>
          simp only [reduceCtorEq, false_iff]
          rintro ⟨rfl, a', ha, hc, -⟩
          rw [initWith_of_none hc] at e3; cases e3
        | some h2 =>
          obtain ⟨k1, rfl⟩ := initWith_some e3
          simp only [Out.ok.injEq, Prod.mk.injEq]
          constructor
          · rintro ⟨⟨rfl, rfl⟩, rfl⟩
            exact ⟨rfl, a, by rw [e], k1, rfl⟩
          · rintro ⟨rfl, a', ha, -, rfl⟩
            rw [e] at ha
            simp only [Option.some.injEq, Prod.mk.injEq] at ha
            obtain ⟨rfl, rfl⟩ := ha
            exact ⟨⟨rfl, rfl⟩, rfl⟩
  refine ⟨key, fun p r h' hh => ?_⟩
  obtain ⟨rfl, a, ha, hc, rfl⟩ := (key p r h').1 hh
  have hl : h.length < (run (h ++ [none]) (cs h.length)).length := by rw [run_length]; simp; omega
  refine ⟨⟨a, ha, by simp [read, content_set, hl]⟩, fun q b hb => ?_⟩
  have hq : q ≠ h.length := fun e => by subst e; rw [read, content_none (Nat.le_refl _)] at hb; cases hb
  have h0 : content (h ++ [none]) q = some b := by
    have := content_alloc h none q
    rw [if_neg hq] at this
    rw [show h ++ [none] = (alloc none h).2 from rfl, this]; exact hb
  simp [read, content_set, hq, evolve_some h0]

example : allocCyclic (fun p h => (some (p + 10, "r"), (allocInner 7 h).2)) [some 3] = .ok (1, "r") [some 3, some 11, some 7] := rfl
example : allocCyclic (fun p h => (some (5, ()), run h [.init p 9])) [some 3] = (.err [some 3, some 9] : Out Nat (Nat × Unit)) := rfl

/-! ### Several objects at once -/

theorem allocMany_eq (n : Nat) (h : Heap α) : allocMany n h = (List.range' h.length n, h ++ List.replicate n none) := by
  induction n generalizing h with
  | zero => simp [allocMany]
  | succ n ih =>
    simp only [allocMany, allocUninit, alloc, ih, List.length_append, List.length_singleton, List.range'_succ, List.replicate_succ,
      List.append_assoc, List.singleton_append]

theorem initAll_ok (ps : List Nat) (l : List α) (h h' : Heap α) (hn : ps.Nodup) (hps : ∀ p ∈ ps, p < h.length) :
    initAll ps l h = .ok () h' ↔ ps.length = l.length ∧ (∀ p ∈ ps, content h p = none) ∧ h'.length = h.length ∧
      ∀ q, content h' q = ((ps.zip l).lookup q).or (content h q) ∧ (h'[q]?).isSome = (h[q]?).isSome := by
  have heq : ∀ (h h' : Heap α), h'.length = h.length → (∀ q, content h' q = content h q) → h' = h := by
    intro h h' hl hc
    refine List.ext_getElem? fun i => ?_
    have := hc i
    simp only [content] at this
    by_cases hi : i < h.length
    · rw [List.getElem?_eq_getElem hi, List.getElem?_eq_getElem (hl ▸ hi)] at *
      simpa using this
    · rw [List.getElem?_eq_none (by omega), List.getElem?_eq_none (by omega)]
  have hsome : ∀ (h h' : Heap α), h'.length = h.length → ∀ q : Nat, (h'[q]?).isSome = (h[q]?).isSome := by
    intro h h' hl q
    by_cases hi : q < h.length
    · rw [List.getElem?_eq_getElem hi, List.getElem?_eq_getElem (hl ▸ hi)]; rfl
    · rw [List.getElem?_eq_none (by omega), List.getElem?_eq_none (by omega)]
  induction ps generalizing l h with
  | nil =>
    cases l with
    | nil =>
      simp only [initAll, Out.ok.injEq, true_and, List.length_nil, List.not_mem_nil, false_implies, implies_true, List.zip_nil_left,
        List.lookup_nil, Option.none_or]
      exact ⟨fun e => by subst e; simp, fun ⟨h1, h2⟩ => (heq _ _ h1 fun q => (h2 q).1).symm⟩
    | cons a l => simp [initAll]
  | cons p ps ih =>
    cases l with
    | nil => simp [initAll]
    | cons a l =>
      have hnp := (List.nodup_cons.1 hn)
      simp only [initAll, List.length_cons, Nat.add_right_cancel_iff, List.mem_cons, forall_eq_or_imp, List.zip_cons_cons]
      cases e : initWith p a h with
      | none =>
        simp only [reduceCtorEq, false_iff]
        rintro ⟨-, ⟨hc, -⟩, -⟩
        rw [initWith_of_none hc] at e; cases e
      | some h1 =>
        obtain ⟨k1, rfl⟩ := initWith_some e
        simp only
        have hp : p < h.length := hps p (by simp)
        have hps' : ∀ q ∈ ps, q < (h.set p (some a)).length := fun q hq => by simpa using hps q (by simp [hq])
        refine Iff.trans (ih l (h.set p (some a)) hnp.2 hps') ?_
        rw [List.length_set]
        have hc : ∀ q, content (h.set p (some a)) q = if q = p then some a else content h q := by
          intro q; rw [content_set]; simp [hp]
        have hlk : ∀ q, ((ps.zip l).lookup q).or (content (h.set p (some a)) q) = (((p, a) :: ps.zip l).lookup q).or (content h q) := by
          intro q
          rw [hc, List.lookup_cons]
          by_cases eq : q = p
          · subst eq
            have : (ps.zip l).lookup q = none := by
              rw [List.lookup_eq_none_iff]
              intro x hx
              have := List.of_mem_zip hx
              rw [bne_iff_ne]
              intro e'
              exact hnp.1 (by rw [e']; exact this.1)
            simp [this]
          · have : (q == p) = false := by simp [eq]
            simp [this, eq]
        constructor
        · rintro ⟨g1, g2, g3, g4⟩
          refine ⟨g1, ⟨k1, fun q hq => ?_⟩, g3, fun q => ⟨by rw [(g4 q).1, hlk], by rw [(g4 q).2]; exact hsome _ _ (by simp) q⟩⟩
          have := g2 q hq
          rw [hc, if_neg (fun e : q = p => hnp.1 (e ▸ hq))] at this
          exact this
        · rintro ⟨g1, ⟨-, g2⟩, g3, g4⟩
          refine ⟨g1, fun q hq => by rw [hc, if_neg (fun e : q = p => hnp.1 (e ▸ hq))]; exact g2 q hq, g3, fun q => ⟨by rw [(g4 q).1, hlk], hsome _ _ (by simp [g3]) q⟩⟩

/-- **C43**: several objects that refer to each other. When the callback only reads and allocates, giving as many contents as
there are objects, the allocation succeeds, the i-th object holds the i-th content, and everything else is unchanged; with
another number of contents it panics. -/
theorem C43_multiple {ρ : Type} (n : Nat) (f : List Nat → Heap α → Option (List α × ρ) × Heap α) (extra : List (Option α))
    (hf : ∀ ps h, (f ps h).2 = h ++ extra) (h : Heap α) (l : List α) (r : ρ)
    (hr : (f (List.range' h.length n) (h ++ List.replicate n none)).1 = some (l, r)) :
    (l.length = n → ∃ h', allocManyCyclic n f h = .ok (List.range' h.length n, r) h' ∧
      (∀ i, i < n → read h' (h.length + i) = l[i]?) ∧ (∀ q, q < h.length → read h' q = read h q) ∧
      h'.length = h.length + n + extra.length ∧ ∀ j, j < extra.length → content h' (h.length + n + j) = content extra j) ∧
    (l.length ≠ n → ∃ h', allocManyCyclic n f h = .panic h') := by
  have e2 := hf (List.range' h.length n) (h ++ List.replicate n none)
  have hg : f (List.range' h.length n) (h ++ List.replicate n none) = (some (l, r), h ++ List.replicate n none ++ extra) :=
    Prod.ext hr e2
  have hlen : (h ++ List.replicate n none ++ extra).length = h.length + n + extra.length := by simp; omega
  have hlt : ∀ p ∈ List.range' h.length n, p < (h ++ List.replicate n none ++ extra).length := by
    intro p hp; rw [hlen]; have := List.mem_range'_1.1 hp; omega
  have hnone : ∀ p ∈ List.range' h.length n, content (h ++ List.replicate n none ++ extra) p = none := by
    intro p hp
    have := List.mem_range'_1.1 hp
    rw [content, List.getElem?_append_left (by simp; omega), List.getElem?_append_right (by omega), List.getElem?_replicate, if_pos (by omega)]
    rfl
  have hnd : (List.range' h.length n).Nodup := List.nodup_range'
  constructor
  · intro hl
    -- what `initAll` computes
    obtain ⟨h', hh'⟩ : ∃ h', initAll (List.range' h.length n) l (h ++ List.replicate n none ++ extra) = .ok () h' := by
      have : ∀ (ps : List Nat) (l : List α) (h : Heap α), ps.Nodup → (∀ p ∈ ps, content h p = none) → ps.length = l.length →
          ∃ h', initAll ps l h = .ok () h' := by
        intro ps
        induction ps with
        | nil => intro l h _ _ e; cases l with
          | nil => exact ⟨h, rfl⟩
          | cons _ _ => simp at e
        | cons p ps ih =>
          intro l h hn hc e
          cases l with
          | nil => simp at e
          | cons a l =>
            have h1 : initWith p a h = some (h.set p (some a)) := initWith_of_none (hc p (by simp))
            simp only [initAll, h1]
            refine ih l _ (List.nodup_cons.1 hn).2 (fun q hq => ?_) (by simpa using e)
            rw [content_set, if_neg (fun k : q = p ∧ _ => (List.nodup_cons.1 hn).1 (k.1 ▸ hq))]
            exact hc q (by simp [hq])
      exact this _ _ _ hnd hnone (by simp [hl])
    obtain ⟨-, -, g3, g4⟩ := (initAll_ok _ _ _ _ hnd hlt).1 hh'
    refine ⟨h', ?_, fun i hi => ?_, fun q hq => ?_, by rw [g3, hlen], fun j hj => ?_⟩
    · simp only [allocManyCyclic, allocMany_eq, hg, hh']
    · have hz : ∀ (s : Nat) (l : List α) (n i : Nat), l.length = n → i < n → ((List.range' s n).zip l).lookup (s + i) = l[i]? := by
        intro s l
        induction l generalizing s with
        | nil => intro n i e hi; simp at e; omega
        | cons a l ih =>
          intro n i e hi
          cases n with
          | zero => omega
          | succ n =>
            rw [List.range'_succ, List.zip_cons_cons, List.lookup_cons]
            cases i with
            | zero => simp
            | succ i =>
              have : (s + (i + 1) == s) = false := by simp
              rw [this]
              have := ih (s + 1) n i (by simpa using e) (by omega)
              rw [show s + 1 + i = s + (i + 1) by omega] at this
              simpa using this
      rw [read, (g4 _).1, hz h.length l n i hl hi, hnone _ (List.mem_range'_1.2 ⟨by omega, by omega⟩)]
      simp
    · have hno : ((List.range' h.length n).zip l).lookup q = none := by
        rw [List.lookup_eq_none_iff]
        intro x hx
        have := List.mem_range'_1.1 (List.of_mem_zip hx).1
        rw [bne_iff_ne]
        omega
      rw [read, (g4 _).1, hno, Option.none_or, read, content, content, List.append_assoc, List.getElem?_append_left hq]
    · have hno : ((List.range' h.length n).zip l).lookup (h.length + n + j) = none := by
        rw [List.lookup_eq_none_iff]
        intro x hx
        have := List.mem_range'_1.1 (List.of_mem_zip hx).1
        rw [bne_iff_ne]
        omega
      rw [(g4 _).1, hno, Option.none_or, content, content, List.getElem?_append_right (by simp)]
      congr 2
      simp
  · intro hl
    have : ∀ (ps : List Nat) (l : List α) (h : Heap α), ps.Nodup → (∀ p ∈ ps, content h p = none) → ps.length ≠ l.length →
        ∃ h', initAll ps l h = .panic h' := by
      intro ps
      induction ps with
      | nil => intro l h _ _ e; cases l with
        | nil => simp at e
        | cons _ _ => exact ⟨h, rfl⟩
      | cons p ps ih =>
        intro l h hn hc e
        cases l with
        | nil => exact ⟨h, rfl⟩
        | cons a l =>
          have h1 : initWith p a h = some (h.set p (some a)) := initWith_of_none (hc p (by simp))
          simp only [initAll, h1]
          refine ih l _ (List.nodup_cons.1 hn).2 (fun q hq => ?_) (by simpa using e)
          rw [content_set, if_neg (fun k : q = p ∧ _ => (List.nodup_cons.1 hn).1 (k.1 ▸ hq))]
          exact hc q (by simp [hq])
    obtain ⟨h', hh'⟩ := this _ l _ hnd hnone (by simpa using fun e => hl e.symm)
    exact ⟨h', by simp only [allocManyCyclic, allocMany_eq, hg, hh']⟩

example : allocManyCyclic 2 (fun ps h => (some (ps.map (· * 10), "r"), h ++ [some 7])) [some 3] =
    .ok ([1, 2], "r") [some 3, some 10, some 20, some 7] := rfl

/-! ### Comparison of references -/

/-- **C43**: comparing two references gives a verdict as soon as both objects are initialised, the verdict never changes
afterwards, and it is that of a total order: equality is identity of the objects, and the order is reversed by swapping and
transitive. -/
theorem C43_compare [LinearOrder α] (h : Heap α) (l : List (Cmd α)) (p q r : Nat) (hp : (read h p).isSome) (hq : (read h q).isSome)
    (hr : (read h r).isSome) :
    (∃ o, cmp h p q = some o ∧ cmp (run h l) p q = some o) ∧
    (cmp h p q = some .eq ↔ p = q) ∧
    (cmp h p q = some .lt ↔ cmp h q p = some .gt) ∧
    (cmp h p q = some .lt → cmp h q r = some .lt → cmp h p r = some .lt) := by
  obtain ⟨a, ha⟩ := Option.isSome_iff_exists.1 hp
  obtain ⟨b, hb⟩ := Option.isSome_iff_exists.1 hq
  obtain ⟨c, hc⟩ := Option.isSome_iff_exists.1 hr
  have ha' := evolve_some (l := l) ha
  have hb' := evolve_some (l := l) hb
  have hlt : ∀ {x y : Nat} {u v : α}, read h x = some u → read h y = some v →
      (cmp h x y = some .lt ↔ u < v ∨ (u = v ∧ x < y)) := by
    intro x y u v hx hy
    by_cases e : x = y
    · subst e
      rw [hx] at hy
      obtain rfl := Option.some.inj hy
      simp [cmp]
    · simp only [cmp, if_neg e, hx, hy, Option.some.injEq]
      rcases lt_trichotomy u v with h1 | h1 | h1
      · simp [compare_lt_iff_lt.2 h1, h1, Ordering.then]
      · subst h1
        have : compare u u = .eq := compare_eq_iff_eq.2 rfl
        simp [this, Ordering.then, compare_lt_iff_lt]
      · simp [compare_gt_iff_gt.2 h1, Ordering.then, not_lt_of_gt h1, ne_of_gt h1]
  have hgt : ∀ {x y : Nat} {u v : α}, read h x = some u → read h y = some v →
      (cmp h x y = some .gt ↔ v < u ∨ (u = v ∧ y < x)) := by
    intro x y u v hx hy
    by_cases e : x = y
    · subst e
      rw [hx] at hy
      obtain rfl := Option.some.inj hy
      simp [cmp]
    · simp only [cmp, if_neg e, hx, hy, Option.some.injEq]
      rcases lt_trichotomy u v with h1 | h1 | h1
      · simp [compare_lt_iff_lt.2 h1, Ordering.then, not_lt_of_gt h1, ne_of_lt h1]
      · subst h1
        have : compare u u = .eq := compare_eq_iff_eq.2 rfl
        simp [this, Ordering.then, compare_gt_iff_gt]
      · simp [compare_gt_iff_gt.2 h1, h1, Ordering.then]
  refine ⟨?_, ?_, ?_, ?_⟩
  · by_cases e : p = q
    · exact ⟨.eq, by simp [cmp, e], by simp [cmp, e]⟩
    · refine ⟨(compare a b).then (compare p q), ?_, ?_⟩
      · simp only [cmp, if_neg e, ha, hb]
      · simp only [cmp, if_neg e, read, ha', hb']
  · by_cases e : p = q
    · simp [cmp, e]
    · simp only [cmp, if_neg e, ha, hb, Option.some.injEq, e, iff_false]
      intro k
      cases h1 : compare a b <;> rw [h1] at k <;> simp [Ordering.then] at k
      exact e k
  · rw [hlt ha hb, hgt hb ha]
    constructor
    · rintro (k | ⟨k, k'⟩)
      · exact .inl k
      · exact .inr ⟨k.symm, k'⟩
    · rintro (k | ⟨k, k'⟩)
      · exact .inl k
      · exact .inr ⟨k.symm, k'⟩
  · rw [hlt ha hb, hlt hb hc, hlt ha hc]
    rintro (k | ⟨rfl, k⟩) (k' | ⟨rfl, k'⟩)
    · exact .inl (lt_trans k k')
    · exact .inl k
    · exact .inl k'
    · exact .inr ⟨rfl, lt_trans k k'⟩

example : cmp [some 3, none, some 3, some 1] 0 2 = some .lt ∧ cmp [some 3, none, some 3, some 1] 0 3 = some .gt ∧
    cmp [some 3, none, some 3, some 1] 0 1 = none := by decide

end Cont
end CV
