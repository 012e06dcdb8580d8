import Verif.Utils
import Mathlib.Tactic.ByContra
set_option linter.unusedSimpArgs false
/-
C40, C41: the shared-slice iterators and reference slices.
-/
namespace CV
namespace Utl

variable {α : Type}

/-! ### SPECIFICATION: reading a sequence from both ends -/

/-- One read: from the front or from the back. -/
inductive Rd
  | front | back
  deriving DecidableEq

/-- An iterator type: `next`, `next_back`, the announced length; `none` is a panic. -/
structure DIter (σ α : Type) where
  next : σ → Option (Option α × σ)
  nextBack : σ → Option (Option α × σ)
  len : σ → Option Nat

variable {σ : Type}

/-- The observations of a history of reads: for each the announced length before it and the item. -/
def DIter.run (it : DIter σ α) : List Rd → σ → Option (List (Nat × Option α))
  | [], _ => some []
  | r :: rs, s => (it.len s).bind fun n =>
    (match r with | .front => it.next s | .back => it.nextBack s).bind fun p =>
      (it.run rs p.2).map ((n, p.1) :: ·)

/-- The intended observations: the items that remain are a list. -/
def ideal : List Rd → List α → List (Nat × Option α)
  | [], _ => []
  | .front :: rs, l => (l.length, l.head?) :: ideal rs l.tail
  | .back :: rs, l => (l.length, l.getLast?) :: ideal rs l.dropLast

/-- The iterator in state `s` never panics and yields exactly the elements of `l`, from both ends, with
the right announced lengths. -/
def Yields (it : DIter σ α) (s : σ) (l : List α) : Prop := ∀ rs, it.run rs s = some (ideal rs l)

/-- A simulation relation suffices. -/
theorem yields_of_sim {it : DIter σ α} (R : σ → List α → Prop)
    (hl : ∀ s l, R s l → it.len s = some l.length)
    (hn : ∀ s l, R s l → ∃ s', it.next s = some (l.head?, s') ∧ R s' l.tail)
    (hb : ∀ s l, R s l → ∃ s', it.nextBack s = some (l.getLast?, s') ∧ R s' l.dropLast)
    {s : σ} {l : List α} (h : R s l) : Yields it s l := by
  intro rs
  induction rs generalizing s l with
  | nil => rfl
  | cons r rs ih =>
    cases r with
    | front =>
      obtain ⟨s', h1, h2⟩ := hn s l h
      simp [DIter.run, hl s l h, h1, ih h2, ideal]
    | back =>
      obtain ⟨s', h1, h2⟩ := hb s l h
      simp [DIter.run, hl s l h, h1, ih h2, ideal]

/-! What `ideal` means: the items from the front followed by what is left and the items from the back in
reverse order are the list; once it is empty nothing comes any more. -/

def fronts : List Rd → List (Nat × Option α) → List α
  | .front :: rs, (_, x) :: os => x.toList ++ fronts rs os
  | .back :: rs, _ :: os => fronts rs os
  | _, _ => []
def backs : List Rd → List (Nat × Option α) → List α
  | .back :: rs, (_, x) :: os => x.toList ++ backs rs os
  | .front :: rs, _ :: os => backs rs os
  | _, _ => []

theorem ideal_split (rs : List Rd) (l : List α) :
    ∃ rest, l = fronts rs (ideal rs l) ++ rest ++ (backs rs (ideal rs l)).reverse ∧
      (rest ≠ [] → ∀ o ∈ ideal rs l, o.2 ≠ none) ∧ rest.length = l.length - rs.length := by
  induction rs generalizing l with
  | nil => exact ⟨l, by simp [ideal, fronts, backs]⟩
  | cons r rs ih =>
    cases r with
    | front =>
      obtain ⟨rest, h1, h2, h3⟩ := ih l.tail
      refine ⟨rest, ?_, ?_, ?_⟩
      · cases l with
        | nil => simpa [ideal, fronts, backs] using h1
        | cons a l => simpa [ideal, fronts, backs] using h1
      · intro hr o ho
        simp only [ideal, List.mem_cons] at ho
        rcases ho with rfl | ho
        · cases l with
          | nil => exact absurd (by simpa using h1) (fun h : fronts rs (ideal rs ([] : List α)) = [] ∧ rest = [] ∧ _ => hr h.2.1)
          | cons a l => simp
        · exact h2 hr o ho
      · simp [h3]; omega
    | back =>
      obtain ⟨rest, h1, h2, h3⟩ := ih l.dropLast
      refine ⟨rest, ?_, ?_, ?_⟩
      · rcases List.eq_nil_or_concat l with rfl | ⟨l', a, rfl⟩
        · simpa [ideal, fronts, backs] using h1
        · simp only [List.concat_eq_append, ideal, fronts, backs, List.getLast?_append, List.dropLast_concat] at h1 ⊢
          simp only [List.getLast?_singleton, Option.some_or, Option.toList_some, List.reverse_cons,
            List.reverse_append, List.reverse_nil, List.nil_append, ← List.append_assoc]
          have h4 := congrArg (· ++ [a]) h1
          simpa using h4
      · intro hr o ho
        simp only [ideal, List.mem_cons] at ho
        rcases ho with rfl | ho
        · cases l with
          | nil => exact absurd (by simpa using h1) (fun h : fronts rs (ideal rs ([] : List α)) = [] ∧ rest = [] ∧ _ => hr h.2.1)
          | cons a l => simp
        · exact h2 hr o ho
      · simp [h3]; omega

/-! ### ArcIntoIter -/

def ArcIt.diter : DIter (ArcIt α) α := ⟨ArcIt.next, ArcIt.nextBack, ArcIt.len⟩

/-- The elements left. -/
def ArcIt.Rel : ArcIt α → List α → Prop
  | .empty, l => l = []
  | .iter data i e, l => i ≤ e ∧ e ≤ data.length ∧ l = (data.take e).drop i

theorem ArcIt.rel_len {s : ArcIt α} {l : List α} (h : s.Rel l) : s.len = some l.length := by
  cases s with
  | empty => simp [Rel] at h; simp [h, len]
  | iter data i e =>
    obtain ⟨h1, h2, rfl⟩ := h
    simp [len, h1, Nat.min_eq_left h2]

theorem ArcIt.rel_next {s : ArcIt α} {l : List α} (h : s.Rel l) :
    ∃ s', s.next = some (l.head?, s') ∧ s'.Rel l.tail := by
  cases s with
  | empty => simp [Rel] at h; subst h; exact ⟨.empty, rfl, rfl⟩
  | iter data i e =>
    obtain ⟨h1, h2, rfl⟩ := h
    by_cases hie : i = e
    · subst hie
      have : (data.take i).drop i = [] := by simp
      exact ⟨.empty, by simp [next, this], by simp [Rel, this]⟩
    · have hlt : i < e := by omega
      have hi : i < data.length := by omega
      have hd : (data.take e).drop i = data[i] :: (data.take e).drop (i + 1) := by
        rw [List.drop_eq_getElem_cons (by simp; omega)]
        simp
      refine ⟨.iter data (i + 1) e, ?_, ?_⟩
      · simp [next, hie, List.getElem?_eq_getElem hi, hd]
      · rw [hd]; exact ⟨by omega, h2, rfl⟩

theorem ArcIt.rel_back {s : ArcIt α} {l : List α} (h : s.Rel l) :
    ∃ s', s.nextBack = some (l.getLast?, s') ∧ s'.Rel l.dropLast := by
  cases s with
  | empty => simp [Rel] at h; subst h; exact ⟨.empty, rfl, rfl⟩
  | iter data i e =>
    obtain ⟨h1, h2, rfl⟩ := h
    by_cases hie : i = e
    · subst hie
      have : (data.take i).drop i = [] := by simp
      exact ⟨.empty, by simp [nextBack, this], by simp [Rel, this]⟩
    · obtain ⟨k, rfl⟩ : ∃ k, e = k + 1 := ⟨e - 1, by omega⟩
      have hk : k < data.length := by omega
      have hd : (data.take (k + 1)).drop i = (data.take k).drop i ++ [data[k]] := by
        rw [List.take_succ_eq_append_getElem hk, List.drop_append_of_le_length (by simp; omega)]
      refine ⟨.iter data i k, ?_, ?_⟩
      · have : ¬ i = k + 1 := hie
        simp [nextBack, this, List.getElem?_eq_getElem hk, hd]
      · rw [hd, List.dropLast_concat]; exact ⟨by omega, by omega, rfl⟩

theorem ArcIt.yields {s : ArcIt α} {l : List α} (h : s.Rel l) : Yields ArcIt.diter s l :=
  yields_of_sim ArcIt.Rel (fun _ _ => ArcIt.rel_len) (fun _ _ => ArcIt.rel_next) (fun _ _ => ArcIt.rel_back) h

/-- C40. The shared-slice iterator over `l`, in whichever way it was made, yields the elements of `l`
for every interleaving of reads from the two ends, with exact announced lengths. -/
theorem C40_arc (l : List α) :
    Yields ArcIt.diter (ArcIt.ofArc l) l ∧ Yields ArcIt.diter (ArcIt.ofArcRef l) l := by
  refine ⟨ArcIt.yields ⟨by omega, Nat.le_refl _, by simp⟩, ?_⟩
  unfold ArcIt.ofArcRef
  split
  · rename_i h
    exact ArcIt.yields (l := l) (List.length_eq_zero_iff.1 h)
  · exact ArcIt.yields ⟨by omega, Nat.le_refl _, by simp⟩

/-- C40. For every history of reads: the items read at the front, the unread ones and the reversed items
read at the back are together the slice; there are `|l| - #reads` unread ones, and as long as there are
some no read comes back empty. -/
theorem C40_each_once (l : List α) (rs : List Rd) :
    ∃ os rest, ArcIt.diter.run rs (ArcIt.ofArc l) = some os ∧
      l = fronts rs os ++ rest ++ (backs rs os).reverse ∧ rest.length = l.length - rs.length ∧
      (rest ≠ [] → ∀ o ∈ os, o.2 ≠ none) := by
  obtain ⟨rest, h1, h2, h3⟩ := ideal_split rs l
  exact ⟨_, rest, (C40_arc l).1 rs, h1, h3, h2⟩

/-- C40. Once the iterator has come back empty it stays so, at both ends. -/
theorem C40_fused (l : List α) (rs rs' : List Rd) (h : l.length ≤ rs.length) :
    ∃ os os', ArcIt.diter.run (rs ++ rs') (ArcIt.ofArc l) = some (os ++ os') ∧ os.length = rs.length ∧
      ∀ o ∈ os', o = (0, none) := by
  refine ⟨ideal rs l, ideal rs' [], ?_, ?_, ?_⟩
  · rw [(C40_arc l).1]
    congr 1
    induction rs generalizing l with
    | nil => simp at h; subst h; simp [ideal]
    | cons r rs ih =>
      cases r with
      | front => simp only [List.cons_append, ideal]; rw [ih]; simp at h ⊢; omega
      | back => simp only [List.cons_append, ideal]; rw [ih]; simp at h ⊢; omega
  · clear h
    induction rs generalizing l with
    | nil => rfl
    | cons r rs ih => cases r <;> simp [ideal, ih]
  · intro o ho
    induction rs' with
    | nil => simp [ideal] at ho
    | cons r rs' ih =>
      cases r <;> simp [ideal] at ho <;> rcases ho with rfl | ho <;> first | rfl | exact ih ho

example : ArcIt.diter.run [.front, .back, .back, .front, .back] (ArcIt.ofArc [1, 2, 3]) =
    some [(3, some 1), (2, some 3), (1, some 2), (0, none), (0, none)] := by decide

/-- C40. `collect` gives the elements that remain. -/
theorem C40_collect {s : ArcIt α} {l : List α} (h : s.Rel l) : s.collect = some l := by
  cases s with
  | empty => simp [ArcIt.Rel] at h; simp [h, ArcIt.collect]
  | iter data i e => obtain ⟨h1, h2, rfl⟩ := h; simp [ArcIt.collect, h1, h2]

example : ArcIt.Rel (.iter [1, 2, 3, 4] 1 3) [2, 3] := by simp [ArcIt.Rel]

/-! ### VecRef -/

/-- SPECIFICATION: the contents. -/
def VecRef.contents : VecRef α → List α
  | .vec l | .ref l | .refRef l => l
  | .single a => [a]
  | .empty => []
def VecRefClone.contents : VecRefClone α → List α
  | .vecRef v => v.contents
  | .vec l => l
  | .owned a => [a]

def IterVecRef.diter : DIter (IterVecRef α) α := ⟨IterVecRef.next, IterVecRef.nextBack, IterVecRef.len⟩
def IntoIterVRC.diter : DIter (IntoIterVRC α) α :=
  ⟨IntoIterVRC.next, IntoIterVRC.nextBack, IntoIterVRC.len⟩

def IterVecRef.Rel : IterVecRef α → List α → Prop
  | .owned it, l => it.Rel l
  | .vec l', l | .ref l', l => l' = l
  | .single a, l => l = [a]
  | .empty, l => l = []

theorem IterVecRef.rel_len {s : IterVecRef α} {l : List α} (h : s.Rel l) : s.len = some l.length := by
  cases s <;> simp only [Rel] at h
  · exact ArcIt.rel_len h
  all_goals subst h; rfl

theorem IterVecRef.rel_next {s : IterVecRef α} {l : List α} (h : s.Rel l) :
    ∃ s', s.next = some (l.head?, s') ∧ s'.Rel l.tail := by
  cases s <;> simp only [Rel] at h
  · obtain ⟨s', h1, h2⟩ := ArcIt.rel_next h
    exact ⟨.owned s', by simp [next, h1], h2⟩
  all_goals subst h; exact ⟨_, rfl, rfl⟩

theorem IterVecRef.rel_back {s : IterVecRef α} {l : List α} (h : s.Rel l) :
    ∃ s', s.nextBack = some (l.getLast?, s') ∧ s'.Rel l.dropLast := by
  cases s <;> simp only [Rel] at h
  · obtain ⟨s', h1, h2⟩ := ArcIt.rel_back h
    exact ⟨.owned s', by simp [nextBack, h1], h2⟩
  all_goals subst h; exact ⟨_, rfl, rfl⟩

def IntoIterVRC.Rel : IntoIterVRC α → List α → Prop
  | .vecRef it, l => it.Rel l
  | .vec it, l => it.Rel l
  | .one a, l => l = [a]

theorem VecRef.iter_rel (v : VecRef α) : v.iter.Rel v.contents ∧ v.intoIter.Rel v.contents := by
  cases v <;> simp [iter, intoIter, contents, IterVecRef.Rel, ArcIt.ofArc, ArcIt.Rel]

/-- C40 for reference slices: borrowing and consuming iterators of every representation. -/
theorem C40_vecref (v : VecRef α) :
    Yields IterVecRef.diter v.iter v.contents ∧ Yields IterVecRef.diter v.intoIter v.contents :=
  ⟨yields_of_sim IterVecRef.Rel (fun _ _ => IterVecRef.rel_len) (fun _ _ => IterVecRef.rel_next)
      (fun _ _ => IterVecRef.rel_back) v.iter_rel.1,
    yields_of_sim IterVecRef.Rel (fun _ _ => IterVecRef.rel_len) (fun _ _ => IterVecRef.rel_next)
      (fun _ _ => IterVecRef.rel_back) v.iter_rel.2⟩

theorem VecRefClone.iter_rel (v : VecRefClone α) : v.iter.Rel v.contents ∧ v.intoIter.Rel v.contents := by
  cases v with
  | vecRef v => exact v.iter_rel
  | vec l => simp [iter, intoIter, contents, IterVecRef.Rel, IntoIterVRC.Rel, VecRef.iter, ArcIt.ofArc, ArcIt.Rel]
  | owned a => exact ⟨rfl, rfl⟩

/-- C40 for owning reference slices. -/
theorem C40_vecrefclone (v : VecRefClone α) :
    Yields IterVecRef.diter v.iter v.contents ∧ Yields IntoIterVRC.diter v.intoIter v.contents := by
  refine ⟨yields_of_sim IterVecRef.Rel (fun _ _ => IterVecRef.rel_len) (fun _ _ => IterVecRef.rel_next)
      (fun _ _ => IterVecRef.rel_back) v.iter_rel.1, yields_of_sim IntoIterVRC.Rel ?_ ?_ ?_ v.iter_rel.2⟩
  · intro s l h
    cases s with
    | vecRef it => exact IterVecRef.rel_len h
    | vec it => exact ArcIt.rel_len h
    | one a => cases h; rfl
  · intro s l h
    cases s with
    | vecRef it => obtain ⟨s', h1, h2⟩ := IterVecRef.rel_next h; exact ⟨.vecRef s', by simp [IntoIterVRC.diter, IntoIterVRC.next, h1], h2⟩
    | vec it => obtain ⟨s', h1, h2⟩ := ArcIt.rel_next h; exact ⟨.vec s', by simp [IntoIterVRC.diter, IntoIterVRC.next, h1], h2⟩
    | one a => cases h; exact ⟨_, rfl, rfl⟩
  · intro s l h
    cases s with
    | vecRef it => obtain ⟨s', h1, h2⟩ := IterVecRef.rel_back h; exact ⟨.vecRef s', by simp [IntoIterVRC.diter, IntoIterVRC.nextBack, h1], h2⟩
    | vec it => obtain ⟨s', h1, h2⟩ := ArcIt.rel_back h; exact ⟨.vec s', by simp [IntoIterVRC.diter, IntoIterVRC.nextBack, h1], h2⟩
    | one a => cases h; exact ⟨_, rfl, rfl⟩

example : IterVecRef.diter.run [.back, .front] (VecRefClone.owned 7).iter = some [(1, some 7), (0, none)] := by
  decide

/-- C40. Extending appends. -/
theorem C40_extend (v : VecRef α) (w : VecRefClone α) (l : List α) :
    (v.extend l).map VecRef.contents = some (v.contents ++ l) ∧
    (w.extend l).map VecRefClone.contents = some (w.contents ++ l) := by
  have hc : ∀ {it : IterVecRef α} {l}, it.Rel l → it.collect = some l := by
    intro it l h
    cases it <;> simp only [IterVecRef.Rel] at h
    · exact C40_collect h
    all_goals subst h; rfl
  refine ⟨by simp [VecRef.extend, hc v.iter_rel.1, VecRef.contents], ?_⟩
  cases w with
  | vecRef v => simp [VecRefClone.extend, VecRefClone.intoIter, hc v.iter_rel.2, VecRefClone.contents]
  | vec l' =>
    have : (ArcIt.ofArc l').collect = some l' := C40_collect ⟨by omega, Nat.le_refl _, by simp⟩
    simp [VecRefClone.extend, VecRefClone.intoIter, this, VecRefClone.contents]
  | owned a => simp [VecRefClone.extend, VecRefClone.intoIter, VecRefClone.contents]

/-! ### C41 -/

/-- C41 for reading by index: `get i` and indexing give the `i`-th element and fail exactly past the
end, for every representation. -/
theorem C41_get (v : VecRef α) (w : VecRefClone α) (i : Nat) :
    v.get i = v.contents[i]? ∧ v.index i = v.contents[i]? ∧ w.get i = w.contents[i]? := by
  have h : ∀ v : VecRef α, v.get i = v.contents[i]? ∧ v.index i = v.contents[i]? := by
    intro v
    cases v <;> simp [VecRef.get, VecRef.index, VecRef.contents]
    cases i <;> simp
  refine ⟨(h v).1, (h v).2, ?_⟩
  cases w with
  | vecRef v => exact (h v).1
  | vec l => rfl
  | owned a => cases i <;> simp [VecRefClone.get, VecRefClone.contents]

/-- C41 holds exactly for the values without a single borrowed element: the announced length is the
number of elements iff the representation is not `Single`. -/
theorem C41_len_iff (v : VecRef α) : v.len = v.contents.length ↔ ∀ a, v ≠ .single a := by
  cases v <;> simp [VecRef.len, VecRef.contents]

/-- C41, the part that holds. Missing: the representation `Single`, for which `len` is 0 and `is_empty`
is true (`C41_single_counterexample`). -/
theorem C41_len_partial (v : VecRef α) (w : VecRefClone α) (hv : ∀ a, v ≠ .single a)
    (hw : ∀ a, w ≠ .vecRef (.single a)) :
    v.len = v.contents.length ∧ w.len = w.contents.length ∧
    (v.isEmpty = true ↔ v.contents = []) ∧ (w.isEmpty = true ↔ w.contents = []) ∧
    (∀ i, (v.get i).isSome ↔ i < v.len) ∧ ∀ i, (w.get i).isSome ↔ i < w.len := by
  have h1 := (C41_len_iff v).2 hv
  have h2 : w.len = w.contents.length := by
    cases w with
    | vecRef v => exact (C41_len_iff v).2 (fun a h => hw a (by rw [h]))
    | vec l => rfl
    | owned a => rfl
  refine ⟨h1, h2, ?_, ?_, ?_, ?_⟩
  · simp [VecRef.isEmpty, h1]
  · cases w with
    | vecRef v => simp [VecRefClone.isEmpty, VecRef.isEmpty, VecRefClone.contents, (C41_len_iff v).2 (fun a h => hw a (by rw [h]))]
    | vec l => simp [VecRefClone.isEmpty, VecRefClone.contents]
    | owned a => simp [VecRefClone.isEmpty, VecRefClone.contents]
  · intro i; rw [(C41_get v w i).1, h1]; simp
  · intro i; rw [(C41_get v w i).2.2, h2]; simp

example : (∀ a, VecRef.refRef [1, 2] ≠ .single a) ∧ ∀ a, VecRefClone.owned 3 ≠ .vecRef (.single a) := by
  simp

/-- C41 is false of the code: a single borrowed element (the argument list of a name cast) reports
length 0 and emptiness although its iterator announces and yields one element. -/
theorem C41_single_counterexample (a : α) :
    (VecRefClone.vecRef (.single a)).len = 0 ∧ (VecRefClone.vecRef (.single a)).isEmpty = true ∧
    (VecRefClone.vecRef (.single a)).get 0 = some a ∧
    IterVecRef.diter.run [.front, .front] (VecRefClone.vecRef (.single a)).iter = some [(1, some a), (0, none)] :=
  ⟨rfl, rfl, rfl, rfl⟩

end Utl
end CV
