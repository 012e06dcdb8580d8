/-
What a value of the variant monad stands for, and that `bind` and `transpose_iter` act variant by variant.
-/
import Verif.AllOrOne

set_option linter.unusedSimpArgs false

namespace CV

variable {α β γ τ : Type}

/-- All of a list of optional values, or nothing. -/
def seqOpt : List (Option α) → Option (List α)
  | [] => some []
  | none :: _ => none
  | some a :: r => (seqOpt r).map (a :: ·)

/-- `a` is a family of `n` variants whose `i`-th member is `g i`. -/
def Fam (n : Nat) (a : AoO α) (g : Nat → Option α) : Prop :=
  (a.shape = .any ∨ a.shape = .all n) ∧ ∀ i, i < n → ∃ y, a.get i = some y ∧ g i = some y

/-- `x` is an outcome that never panics, that is not an error when `S`, and that when successful is the
family of the `g i`. -/
def Rep (n : Nat) (S : Prop) (x : Res (AoO α)) (g : Nat → Option α) : Prop :=
  match x with
  | .ok a => Fam n a g
  | .err => ¬ S
  | .panic => False

theorem Rep.mono {n : Nat} {S S' : Prop} {x : Res (AoO α)} {g : Nat → Option α} (h : Rep n S x g) (hs : S' → S) :
    Rep n S' x g := by
  cases x with
  | ok a => exact h
  | err => exact fun s => h (hs s)
  | panic => exact h

theorem Rep.congr {n : Nat} {S : Prop} {x : Res (AoO α)} {g g' : Nat → Option α} (h : Rep n S x g)
    (hg : ∀ i, i < n → g i = g' i) : Rep n S x g' := by
  cases x with
  | ok a => exact ⟨h.1, fun i hi => by obtain ⟨y, h1, h2⟩ := h.2 i hi; exact ⟨y, h1, by rw [← hg i hi, h2]⟩⟩
  | err => exact h
  | panic => exact h

theorem rep_pure (n : Nat) (S : Prop) (a : α) : Rep n S (rpure a) (fun _ => some a) :=
  ⟨Or.inl rfl, fun _ _ => ⟨a, rfl, rfl⟩⟩

theorem rep_err (n : Nat) (S : Prop) (hs : ¬ S) (g : Nat → Option α) : Rep n S .err g := hs

theorem rep_goAll {n : Nat} {S : Prop} {f : α → Res (AoO β)} {h : Nat → Nat → Option β} :
    ∀ (l : List α) (i : Nat), i + l.length ≤ n → (∀ k (hk : k < l.length), Rep n S (f l[k]) (h (i + k))) →
    match AoO.goAll f i l with
    | .ok m => m.length = l.length ∧ ∀ k, k < l.length → ∃ y, m[k]? = some y ∧ h (i + k) (i + k) = some y
    | .err => ¬ S
    | .panic => False := by
  intro l
  induction l with
  | nil => intro i _ _; simp [AoO.goAll]
  | cons a l ih =>
    intro i hi hf
    simp only [List.length_cons] at hi
    have h1 := hf 0 (by simp)
    simp only [List.getElem_cons_zero, Nat.add_zero] at h1
    have h2 := ih (i + 1) (by omega) (fun k hk => by
      have := hf (k + 1) (by simpa using hk)
      have e : i + (k + 1) = i + 1 + k := by omega
      rw [e] at this
      simpa using this)
    simp only [AoO.goAll, Res.bind]
    cases hfa : f a with
    | err => rw [hfa] at h1; simpa [Rep] using h1
    | panic => rw [hfa] at h1; exact h1.elim
    | ok r =>
      rw [hfa] at h1
      obtain ⟨y, hy1, hy2⟩ := h1.2 i (by omega)
      simp only [AoO.ownedGet, hy1]
      cases hg : AoO.goAll f (i + 1) l with
      | err => rw [hg] at h2; simpa using h2
      | panic => rw [hg] at h2; exact h2.elim
      | ok m =>
        rw [hg] at h2
        simp only at h2 ⊢
        refine ⟨by simp [h2.1], ?_⟩
        intro k hk
        cases k with
        | zero => exact ⟨y, rfl, by simpa using hy2⟩
        | succ k =>
          obtain ⟨z, hz1, hz2⟩ := h2.2 k (by simpa using hk)
          refine ⟨z, by simpa using hz1, ?_⟩
          have : i + (k + 1) = i + 1 + k := by omega
          rw [this]; exact hz2

/-- Binding the members of a family of families takes the diagonal. -/
theorem rep_all {n : Nat} {S : Prop} {f : α → Res (AoO β)} {h : Nat → Nat → Option β} {l : List α}
    (hl : l.length = n) (hf : ∀ k (hk : k < l.length), Rep n S (f l[k]) (h k)) :
    Rep n S (rbind (.ok (.all l)) f) (fun i => h i i) := by
  have h1 := rep_goAll (n := n) (S := S) (f := f) (h := h) l 0 (by omega) (fun k hk => by simpa using hf k hk)
  simp only [rbind, AoO.bind, Res.bind]
  cases hg : AoO.goAll f 0 l with
  | err => rw [hg] at h1; exact h1
  | panic => rw [hg] at h1; exact h1
  | ok m =>
    rw [hg] at h1
    simp only at h1
    refine ⟨Or.inr (by simp [AoO.shape, h1.1, hl]), fun i hi => ?_⟩
    obtain ⟨z, hz1, hz2⟩ := h1.2 i (by omega)
    exact ⟨z, hz1, by simpa using hz2⟩

/-- `bind` acts variant by variant. -/
theorem rep_bind' {n : Nat} (hn : 0 < n) {S T : Prop} {x : Res (AoO α)} {g : Nat → Option α}
    {f : α → Res (AoO β)} {h : α → Nat → Option β} (hx : Rep n S x g)
    (hf : ∀ i a, i < n → g i = some a → Rep n T (f a) (h a)) :
    Rep n (S ∧ T) (rbind x f) (fun i => (g i).bind fun a => h a i) := by
  cases x with
  | err => exact fun s => hx s.1
  | panic => exact hx
  | ok a =>
    cases a with
    | one i a => rcases hx.1 with h | h <;> simp [AoO.shape] at h
    | any e =>
      simp only [rbind, Res.bind]
      have h1 := hf 0 e hn (by obtain ⟨y, hy1, hy2⟩ := hx.2 0 hn; simp only [AoO.get] at hy1; rw [hy2, hy1])
      simp only [AoO.bind, Res.bind]
      cases hfe : f e with
      | err => rw [hfe] at h1; exact fun s => h1 s.2
      | panic => rw [hfe] at h1; exact h1
      | ok r =>
        rw [hfe] at h1
        have hn : AoO.notOne r = .ok r := by
          cases r with
          | one i b => rcases h1.1 with h | h <;> simp [AoO.shape] at h
          | _ => rfl
        simp only [hn]
        refine ⟨h1.1, fun i hi => ?_⟩
        obtain ⟨y, hy1, hy2⟩ := hx.2 i hi
        simp only [AoO.get, Option.some.injEq] at hy1
        subst hy1
        simp only [hy2, Option.bind_some]
        exact h1.2 i hi
    | all l =>
      have hl : l.length = n := by rcases hx.1 with h | h <;> simp [AoO.shape] at h; exact h
      have hget : ∀ k (hk : k < l.length), g k = some l[k] := by
        intro k hk
        obtain ⟨y, hy1, hy2⟩ := hx.2 k (by omega)
        simp only [AoO.get, List.getElem?_eq_getElem hk] at hy1
        rw [hy2, ← hy1]
      have := rep_all (S := S ∧ T) (f := f) (h := fun k i => (g k).bind fun a => h a i) hl (fun k hk => by
        simp only [hget k hk, Option.bind_some]
        exact (hf k l[k] (by omega) (hget k hk)).mono (·.2))
      exact this

theorem rep_bind {n : Nat} (hn : 0 < n) {S T : Prop} {x : Res (AoO α)} {g : Nat → Option α}
    {f : α → Res (AoO β)} {h : α → Nat → Option β} (hx : Rep n S x g) (hf : ∀ a, Rep n T (f a) (h a)) :
    Rep n (S ∧ T) (rbind x f) (fun i => (g i).bind fun a => h a i) :=
  rep_bind' hn hx fun _ a _ _ => hf a

/-- Post-processing with a pure function. -/
theorem rep_map {n : Nat} (hn : 0 < n) {S : Prop} {x : Res (AoO α)} {g : Nat → Option α} {f : α → β}
    (hx : Rep n S x g) : Rep n S (rbind x fun a => rpure (f a)) (fun i => (g i).map f) :=
  ((rep_bind hn hx (T := True) (fun a => rep_pure n True (f a))).mono fun s => ⟨s, trivial⟩).congr
    fun i _ => by cases g i <;> rfl

/-! ### `transpose_iter` -/

theorem merge_good {n : Nat} : ∀ (l : List Shape) (s : Shape), (∀ t ∈ l, t = .any ∨ t = .all n) →
    (s = .any ∨ s = .all n) →
    AoO.mergeShapes s l = .ok (if s = .all n ∨ .all n ∈ l then .all n else .any) := by
  intro l
  induction l with
  | nil => intro s _ hs; rcases hs with rfl | rfl <;> simp [AoO.mergeShapes]
  | cons t l ih =>
    intro s hl hs
    have ht := hl t (by simp)
    have hl' : ∀ u ∈ l, u = .any ∨ u = .all n := fun u hu => hl u (by simp [hu])
    rcases hs with rfl | rfl <;> rcases ht with rfl | rfl <;>
      simp [AoO.mergeShapes, Shape.tryMerge, ih _ hl']

theorem collect_map_ok {f : τ → Res α} {g : τ → α} {l : List τ} (h : ∀ x ∈ l, f x = .ok (g x)) :
    Res.collect (l.map f) = .ok (l.map g) := by
  induction l with
  | nil => rfl
  | cons x l ih =>
    simp only [List.map_cons, Res.collect, h x (by simp), Res.bind, ih (fun y hy => h y (by simp [hy]))]

theorem collect_forall₂ {P : τ → α → Prop} {f : τ → Res α} {l : List τ} (h : ∀ x ∈ l, ∃ a, f x = .ok a ∧ P x a) :
    ∃ m : List α, Res.collect (l.map f) = .ok m ∧ m.length = l.length ∧
      ∀ k (hk : k < l.length), ∃ a, m[k]? = some a ∧ P l[k] a := by
  induction l with
  | nil => exact ⟨[], rfl, rfl, fun k hk => by simp at hk⟩
  | cons x l ih =>
    obtain ⟨a, ha, hp⟩ := h x (by simp)
    obtain ⟨m, hm, hlen, hk⟩ := ih (fun y hy => h y (by simp [hy]))
    refine ⟨a :: m, by simp [Res.collect, ha, Res.bind, hm], by simp [hlen], ?_⟩
    intro k hk'
    cases k with
    | zero => exact ⟨a, rfl, hp⟩
    | succ k => simpa using hk k (by simpa using hk')

/-- A column of a table of families. -/
theorem column_good {n i : Nat} (hi : i < n) : ∀ (l : List (AoO α × (Nat → Option α))),
    (∀ p ∈ l, Fam n p.1 p.2) →
    ∃ m, AoO.column (l.map (·.1)) i = .ok m ∧ seqOpt (l.map fun p => p.2 i) = some m := by
  intro l
  induction l with
  | nil => intro _; exact ⟨[], rfl, rfl⟩
  | cons p l ih =>
    intro h
    obtain ⟨y, hy1, hy2⟩ := (h p (by simp)).2 i hi
    obtain ⟨m, hm1, hm2⟩ := ih (fun q hq => h q (by simp [hq]))
    refine ⟨y :: m, ?_, ?_⟩
    · simp only [AoO.column] at hm1
      simp only [AoO.column, List.map_cons, Res.collect, AoO.ownedGet, hy1, Res.bind]
      simp only [AoO.ownedGet] at hm1
      rw [hm1]
    · simp only [List.map_cons, hy2, seqOpt, hm2, Option.map_some]

theorem column_any : ∀ (l : List (AoO α)), (∀ a ∈ l, a.shape = .any) →
    ∃ m, ∀ i, AoO.column l i = .ok m := by
  intro l
  induction l with
  | nil => intro _; exact ⟨[], fun _ => rfl⟩
  | cons a l ih =>
    intro h
    obtain ⟨m, hm⟩ := ih (fun b hb => h b (by simp [hb]))
    have ha := h a (by simp)
    cases a with
    | any x =>
      refine ⟨x :: m, fun i => ?_⟩
      have h2 := hm i
      have h1 : (AoO.any x).ownedGet i = .ok x := rfl
      simp only [AoO.column, List.map_cons, Res.collect, h1] at h2 ⊢
      rw [h2]
      rfl
    | all l => simp [AoO.shape] at ha
    | one i x => simp [AoO.shape] at ha

/-- `transpose_iter` of families is the family of the lists. -/
theorem transpose_good {n : Nat} {l : List (AoO α × (Nat → Option α))} (h : ∀ p ∈ l, Fam n p.1 p.2) :
    ∃ r, AoO.transposeIter (l.map (·.1)) = .ok r ∧ Fam n r (fun i => seqOpt (l.map fun p => p.2 i)) := by
  have hs : ∀ t ∈ (l.map (·.1)).map AoO.shape, t = .any ∨ t = .all n := by
    intro t ht
    simp only [List.map_map, List.mem_map, Function.comp] at ht
    obtain ⟨p, hp, rfl⟩ := ht
    exact (h p hp).1
  simp only [AoO.transposeIter, merge_good _ _ hs (Or.inl rfl), Res.bind]
  by_cases hm : Shape.all n ∈ (l.map (·.1)).map AoO.shape
  · rw [if_pos (Or.inr hm)]
    obtain ⟨m, hm1, hm2, hm3⟩ := collect_forall₂
      (P := fun i c => seqOpt (l.map fun p => p.2 i) = some c)
      (f := AoO.column (l.map (·.1))) (l := List.range n)
      (fun i hi => by
        obtain ⟨c, hc1, hc2⟩ := column_good (List.mem_range.1 hi) l h
        exact ⟨c, hc1, hc2⟩)
    simp only [hm1]
    refine ⟨_, rfl, Or.inr (by simpa [AoO.shape] using hm2), fun i hi => ?_⟩
    obtain ⟨c, hc1, hc2⟩ := hm3 i (by simpa using hi)
    exact ⟨c, hc1, by simpa using hc2⟩
  · rw [if_neg (fun h => h.elim (fun h => by cases h) hm)]
    have hall : ∀ a ∈ l.map (·.1), a.shape = .any := by
      intro a ha
      rcases hs a.shape (List.mem_map_of_mem ha) with h1 | h1
      · exact h1
      · exact absurd (h1 ▸ List.mem_map_of_mem ha) hm
    obtain ⟨m, hm1⟩ := column_any _ hall
    simp only [hm1]
    refine ⟨_, rfl, Or.inl rfl, fun i hi => ?_⟩
    obtain ⟨c, hc1, hc2⟩ := column_good hi l h
    rw [hm1 i] at hc1
    cases hc1
    exact ⟨m, rfl, hc2⟩

/-- Converting every element of a list and transposing gives the family of the lists. -/
theorem rep_collect {n : Nat} {S : τ → Prop} {c : τ → Res (AoO α)} {g : τ → Nat → Option α} (ts : List τ)
    (h : ∀ t ∈ ts, Rep n (S t) (c t) (g t)) :
    Rep n (∀ t ∈ ts, S t) ((Res.collect (ts.map c)).bind AoO.transposeIter)
      (fun i => seqOpt (ts.map fun t => g t i)) := by
  have key : (∃ l : List (AoO α × (Nat → Option α)), Res.collect (ts.map c) = .ok (l.map (·.1)) ∧
      (∀ p ∈ l, Fam n p.1 p.2) ∧ l.map (·.2) = ts.map g) ∨
      (Res.collect (ts.map c) = .err ∧ ¬ ∀ t ∈ ts, S t) := by
    induction ts with
    | nil => exact Or.inl ⟨[], rfl, by simp, rfl⟩
    | cons t ts ih =>
      have h1 := h t (by simp)
      have h2 := ih (fun u hu => h u (by simp [hu]))
      simp only [List.map_cons, Res.collect]
      cases hc : c t with
      | err =>
        rw [hc] at h1
        exact Or.inr ⟨rfl, fun hs => h1 (hs t (by simp))⟩
      | panic => rw [hc] at h1; exact h1.elim
      | ok a =>
        rw [hc] at h1
        rcases h2 with ⟨l, hl1, hl2, hl3⟩ | ⟨he, hn⟩
        · refine Or.inl ⟨(a, g t) :: l, ?_, ?_, ?_⟩
          · simp [Res.bind, hl1]
          · intro p hp
            rcases List.mem_cons.1 hp with rfl | hp
            · exact h1
            · exact hl2 p hp
          · simp [hl3]
        · refine Or.inr ⟨by simp [Res.bind, he], fun hs => hn (fun u hu => hs u (by simp [hu]))⟩
  rcases key with ⟨l, hl1, hl2, hl3⟩ | ⟨he, hn⟩
  · obtain ⟨r, hr1, hr2⟩ := transpose_good hl2
    rw [hl1]
    simp only [Res.bind, hr1]
    refine ⟨hr2.1, fun i hi => ?_⟩
    obtain ⟨y, hy1, hy2⟩ := hr2.2 i hi
    refine ⟨y, hy1, ?_⟩
    have : (ts.map fun t => g t i) = l.map fun p => p.2 i := by
      have := congrArg (List.map (fun f : Nat → Option α => f i)) hl3
      simpa [List.map_map, Function.comp_def] using this.symm
    simp only [this]; exact hy2
  · rw [he]; exact hn

/-! ### C51: results of several systems are never mixed -/

theorem seqOpt_gets : ∀ (l : List (AoO α)) (i : Nat) (m : List α), seqOpt (l.map fun a => a.get i) = some m →
    m.map some = l.map fun a => a.get i
  | [], _, m, h => by simp [seqOpt] at h; subst h; rfl
  | a :: l, i, m, h => by
    simp only [List.map_cons] at h ⊢
    cases ha : a.get i with
    | none => rw [ha] at h; simp [seqOpt] at h
    | some x =>
      rw [ha] at h
      simp only [seqOpt, Option.map_eq_some_iff] at h
      obtain ⟨m', hm', rfl⟩ := h
      simp [seqOpt_gets l i m' hm']

theorem fam_self {n : Nat} {a : AoO α} (h : a.shape = .any ∨ a.shape = .all n) : Fam n a a.get := by
  refine ⟨h, fun i hi => ?_⟩
  cases a with
  | any x => exact ⟨x, rfl, rfl⟩
  | one j x => rcases h with h | h <;> simp [AoO.shape] at h
  | all l =>
    have hl : i < l.length := by rcases h with h | h <;> simp [AoO.shape] at h; omega
    exact ⟨l[i], by simp [AoO.get, hl], by simp [AoO.get, hl]⟩

/-- Gathering results that each are common to all systems or give one value per system: the value for
system `i` of the gathering is the list of the values for system `i`. -/
theorem C51_transpose {n : Nat} (l : List (AoO α)) (h : ∀ a ∈ l, a.shape = .any ∨ a.shape = .all n) :
    ∃ r, AoO.transposeIter l = .ok r ∧ (r.shape = .any ∨ r.shape = .all n) ∧
      ∀ i, i < n → ∃ m, r.get i = some m ∧ m.map some = l.map fun a => a.get i := by
  obtain ⟨r, hr1, hr2⟩ := transpose_good (n := n) (l := l.map fun a => (a, a.get)) (by
    intro p hp
    obtain ⟨a, ha, rfl⟩ := List.mem_map.1 hp
    exact fam_self (h a ha))
  simp only [List.map_map, Function.comp_def, List.map_id'] at hr1 hr2
  refine ⟨r, hr1, hr2.1, fun i hi => ?_⟩
  obtain ⟨m, hm1, hm2⟩ := hr2.2 i hi
  exact ⟨m, hm1, seqOpt_gets l i m hm2⟩

/-- Sequencing: the value for system `i` is computed from the value for system `i`. -/
theorem C51_bind {n : Nat} (hn : 0 < n) (x : AoO α) (f : α → AoO β) (hx : x.shape = .any ∨ x.shape = .all n)
    (hf : ∀ a, (f a).shape = .any ∨ (f a).shape = .all n) :
    ∃ r, x.bind (fun a => .ok (f a)) = .ok r ∧ (r.shape = .any ∨ r.shape = .all n) ∧
      ∀ i, i < n → r.get i = (x.get i).bind fun a => (f a).get i := by
  have h := rep_bind hn (S := True) (T := True) (x := .ok x) (fam_self hx)
    (f := fun a => .ok (f a)) (h := fun a => (f a).get) (fun a => fam_self (hf a))
  simp only [rbind, Res.bind] at h
  cases hr : x.bind (fun a => .ok (f a)) with
  | err => rw [hr] at h; exact absurd ⟨trivial, trivial⟩ h
  | panic => rw [hr] at h; exact h.elim
  | ok r =>
    rw [hr] at h
    exact ⟨r, rfl, h.1, fun i hi => by obtain ⟨y, h1, h2⟩ := h.2 i hi; rw [h1]; exact h2.symm⟩

/-- Results for different numbers of systems are refused. -/
theorem C51_widths {l : List (AoO α)} {n m : Nat} (hne : n ≠ m) (h1 : ∃ a ∈ l, a.shape = .all n)
    (h2 : ∃ a ∈ l, a.shape = .all m) : AoO.transposeIter l = .panic := by
  have key : ∀ (l : List Shape) (s : Shape), AoO.mergeShapes s l ≠ .err ∧ ∀ u, AoO.mergeShapes s l = .ok u →
      ∀ t ∈ s :: l, t = .any ∨ t = u := by
    intro l
    induction l with
    | nil => intro s; refine ⟨by simp [AoO.mergeShapes], fun u hu t ht => ?_⟩
             simp only [AoO.mergeShapes, Res.ok.injEq] at hu
             simp only [List.mem_singleton] at ht
             exact Or.inr (ht.trans hu)
    | cons t l ih =>
      intro s
      simp only [AoO.mergeShapes]
      cases hm : s.tryMerge t with
      | none => exact ⟨by simp, by simp⟩
      | some v =>
        refine ⟨(ih v).1, fun u hu w hw => ?_⟩
        have hv := (ih v).2 u hu
        have hst : (s = .any ∨ s = v) ∧ (t = .any ∨ t = v) := by
          cases s <;> cases t <;> simp [Shape.tryMerge] at hm <;> simp [← hm] <;> simp_all
        have huv := hv v (by simp)
        rcases List.mem_cons.1 hw with rfl | hw
        · rcases hst.1 with h | h
          · exact Or.inl h
          · rw [h]; exact huv
        rcases List.mem_cons.1 hw with rfl | hw
        · rcases hst.2 with h | h
          · exact Or.inl h
          · rw [h]; exact huv
        · exact hv w (by simp [hw])
  have hk := key (l.map AoO.shape) .any
  simp only [AoO.transposeIter]
  cases hm : AoO.mergeShapes .any (l.map AoO.shape) with
  | err => exact absurd hm hk.1
  | panic => rfl
  | ok u =>
    obtain ⟨a, ha, ha'⟩ := h1
    obtain ⟨b, hb, hb'⟩ := h2
    have e1 := hk.2 u hm _ (List.mem_cons_of_mem _ (List.mem_map_of_mem ha))
    have e2 := hk.2 u hm _ (List.mem_cons_of_mem _ (List.mem_map_of_mem hb))
    rw [ha'] at e1
    rw [hb'] at e2
    rcases e1 with e1 | e1
    · cases e1
    rcases e2 with e2 | e2
    · cases e2
    rw [← e1] at e2
    exact absurd (Shape.all.inj e2) (Ne.symm hne)

/-- A result for one single system cannot be gathered at all, not even alone. -/
theorem C51_one {l : List (AoO α)} {i : Nat} (h : ∃ a ∈ l, a.shape = .one i) : AoO.transposeIter l = .panic := by
  have key : ∀ (l : List Shape) (s : Shape), (∀ j, s ≠ .one j) → .one i ∈ l → AoO.mergeShapes s l = .panic := by
    intro l
    induction l with
    | nil => intro s _ h; simp at h
    | cons t l ih =>
      intro s hs h
      simp only [AoO.mergeShapes]
      cases hm : s.tryMerge t with
      | none => rfl
      | some v =>
        have ht : ∀ j, t ≠ .one j := by
          intro j e; subst e
          cases s <;> simp [Shape.tryMerge] at hm
          exact absurd rfl (hs _)
        have hv : ∀ j, v ≠ .one j := by
          intro j e; subst e
          cases s <;> cases t <;> simp [Shape.tryMerge] at hm
          exact absurd rfl (hs _)
        refine ih v hv ?_
        rcases List.mem_cons.1 h with h | h
        · exact absurd h.symm (ht i)
        · exact h
  obtain ⟨a, ha, ha'⟩ := h
  simp only [AoO.transposeIter]
  rw [key (l.map AoO.shape) .any (by simp) (ha' ▸ List.mem_map_of_mem ha)]
  rfl

example : AoO.transposeIter [.all [1, 2], .any 5, .all [3, 4]] = .ok (.all [[1, 5, 3], [2, 5, 4]]) := by decide
example : AoO.transposeIter [AoO.all [1, 2], .all [1, 2, 3]] = .panic :=
  C51_widths (n := 2) (m := 3) (by decide) ⟨_, List.mem_cons_self .., rfl⟩ ⟨.all [1, 2, 3], by simp, rfl⟩
example : AoO.transposeIter [AoO.one 0 1] = .panic := C51_one ⟨_, List.mem_cons_self .., rfl⟩
example : ∃ r, (AoO.all [1, 2]).bind (fun a => .ok (AoO.all [a, 10 * a])) = .ok r ∧ r.get 1 = some 20 := ⟨_, rfl, rfl⟩

end CV
