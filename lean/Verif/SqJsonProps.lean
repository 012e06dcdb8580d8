/-
The decoder of Squirrel files (SqJson.lean) reads exactly what the format says (SqJsonSpec.lean), up to a depth.
-/
import Verif.SqJsonSpec

set_option linter.unusedSimpArgs false

namespace CV
namespace Sq

/-! ### serde -/

theorem seqOpt_iff {α β : Type} (f : α → Option β) : ∀ (l : List α) (r : List β), seqOpt (l.map f) = some r ↔ List.Forall₂ (fun x y => f x = some y) l r
  | [], r => by
    simp only [List.map_nil, seqOpt, Option.some.injEq, List.forall₂_nil_left_iff]
    exact eq_comm
  | x :: l, r => by
    simp only [List.map_cons]
    cases h : f x with
    | none =>
      simp only [seqOpt]
      constructor
      · intro h'
        cases h'
      · intro h'
        cases h' with
        | cons h1 _ => rw [h] at h1; cases h1
    | some y =>
      simp only [seqOpt, Option.map_eq_some_iff, seqOpt_iff f l]
      constructor
      · rintro ⟨r', h1, rfl⟩
        exact .cons h h1
      · intro h'
        cases h' with
        | cons h1 h2 =>
          rw [h] at h1
          cases h1
          exact ⟨_, h2, rfl⟩

theorem forall2_flip {α β : Type} {R : α → β → Prop} : ∀ {l : List α} {r : List β}, List.Forall₂ R l r → List.Forall₂ (fun b a => R a b) r l
  | _, _, .nil => .nil
  | _, _, .cons h t => .cons h (forall2_flip t)

theorem once_none {l : List (String × Json)} {k : String} (h : ∀ e ∈ l, e.1 ≠ k) : l.filter (fun e => e.1 = k) = [] := by
  rw [List.filter_eq_nil_iff]
  intro e he
  simpa using h e he

theorem once_iff (l : List (String × Json)) (k : String) (v : Json) : once l k = some v ↔ Once l k v := by
  constructor
  · intro h
    simp only [once] at h
    split at h
    · rename_i e he
      cases h
      have h1 := (List.filter_eq_cons_iff.1 he)
      obtain ⟨pre, post, h2, h3, h4, h5⟩ := h1
      obtain ⟨k', v⟩ := e
      simp only [decide_eq_true_eq] at h4
      subst h4
      refine ⟨pre, post, h2, fun e he => by simpa using h3 e he, fun e he => ?_⟩
      have := List.filter_eq_nil_iff.1 h5 e he
      simpa using this
    · cases h
  · rintro ⟨pre, post, rfl, h1, h2⟩
    simp [once, List.filter_append, once_none h1, List.filter_cons, once_none h2]

theorem depth_mem {l : List Json} : ∀ {j : Json}, j ∈ l → j.depth ≤ depthL l := by
  induction l with
  | nil => intro j h; cases h
  | cons a r ih =>
    intro j h
    simp only [depthL]
    rcases List.mem_cons.1 h with rfl | h
    · omega
    · have := ih h
      omega

theorem depth_memO {l : List (String × Json)} : ∀ {k : String} {j : Json}, (k, j) ∈ l → j.depth ≤ depthO l := by
  induction l with
  | nil => intro k j h; cases h
  | cons a r ih =>
    intro k j h
    simp only [depthO]
    rcases List.mem_cons.1 h with rfl | h
    · simp only [depthP]
      omega
    · have := ih h
      omega

theorem dRec_iff (names : List String) (n : Nat) (j : Json) (vs : List Json) : dRec names n j = some vs ↔ 1 < n ∧ Fields names vs j := by
  by_cases hn : n ≤ 1
  · simp only [dRec, hn, if_true]
    constructor
    · intro h; cases h
    · rintro ⟨h, _⟩; omega
  · have h1 : 1 < n := by omega
    simp only [dRec, hn, if_false, h1, true_and, Fields, ObjOf]
    cases j with
    | obj l =>
      simp only [seqOpt_iff, once_iff]
      constructor
      · intro h
        exact Or.inl ⟨l, rfl, h⟩
      · rintro (⟨l', h2, h3⟩ | ⟨h2, _⟩)
        · cases h2; exact h3
        · cases h2
    | arr l =>
      simp only
      constructor
      · intro h
        split at h
        · cases h
          exact Or.inr ⟨rfl, by assumption⟩
        · cases h
      · rintro (⟨l', h2, _⟩ | ⟨h2, h3⟩)
        · cases h2
        · cases h2
          simp [h3]
    | _ => simp

theorem dFlat_iff (names : List String) (n : Nat) (j : Json) (vs : List Json) : dFlat names n j = some vs ↔ j.depth < n ∧ ObjOf names vs j := by
  by_cases hn : n ≤ j.depth
  · simp only [dFlat, hn, if_true]
    constructor
    · intro h; cases h
    · rintro ⟨h, _⟩; omega
  · have h1 : j.depth < n := by omega
    simp only [dFlat, hn, if_false, h1, true_and, ObjOf]
    cases j with
    | obj l =>
      simp only [seqOpt_iff, once_iff]
      constructor
      · intro h
        exact ⟨l, rfl, h⟩
      · rintro ⟨l', h2, h3⟩
        cases h2; exact h3
    | _ => simp

theorem dArr_iff {α : Type} (n : Nat) (d : Json → Option α) (j : Json) (as : List α) :
    dArr n d j = some as ↔ 1 < n ∧ ArrOf (fun a x => d x = some a) as j := by
  by_cases hn : n ≤ 1
  · simp only [dArr, hn, if_true]
    constructor
    · intro h; cases h
    · rintro ⟨h, _⟩; omega
  · have h1 : 1 < n := by omega
    simp only [dArr, hn, if_false, h1, true_and, ArrOf]
    cases j with
    | arr l =>
      simp only [seqOpt_iff]
      constructor
      · intro h
        exact ⟨l, rfl, forall2_flip h⟩
      · rintro ⟨l', h2, h3⟩
        cases h2
        exact forall2_flip h3
    | _ => simp

theorem dUnit_iff {α : Type} (f : String → Option α) (n : Nat) (j : Json) (a : α) :
    dUnit f n j = some a ↔ ∃ k, f k = some a ∧ (j = .str k ∨ (j = .obj [(k, .null)] ∧ 1 < n)) := by
  constructor
  · intro h
    unfold dUnit at h
    split at h
    · exact ⟨_, h, .inl rfl⟩
    · split at h
      · cases h
      · exact ⟨_, h, .inr ⟨rfl, by omega⟩⟩
    · cases h
  · rintro ⟨k, h1, rfl | ⟨rfl, h2⟩⟩
    · exact h1
    · have : ¬ n ≤ 1 := by omega
      simp [dUnit, this, h1]

theorem dUint_iff (b : Nat) (j : Json) (k : Nat) : dUint b j = some k ↔ NumOf b k j := by
  constructor
  · intro h
    unfold dUint at h
    split at h
    · split at h
      · cases h
        exact ⟨rfl, by assumption⟩
      · cases h
    · cases h
  · rintro ⟨rfl, h⟩
    simp only [dUint, show ((k : Int) = Int.ofNat k) from rfl, h, if_true]

theorem dSymb_iff (j : Json) (s : String) : dSymb j = some s ↔ SymbOf s j := by
  have key : ∀ s, validSymb s = true ↔ (s = "$dummy" ∨ ∀ c ∈ s.toList, c ∉ [';', '$', '#']) := by
    intro s
    simp only [validSymb, Bool.or_eq_true, beq_iff_eq, Bool.not_eq_true', List.any_eq_false, List.mem_cons, List.not_mem_nil, or_false]
    constructor
    · rintro (h | h)
      · exact .inl h
      · refine .inr fun c hc => ?_
        have := h c hc
        rintro (rfl | rfl | rfl) <;> simp at this
    · rintro (h | h)
      · exact .inl h
      · refine .inr fun c hc => ?_
        have := h c hc
        rintro ((rfl | rfl) | rfl) <;> simp at this
  constructor
  · intro h
    unfold dSymb at h
    split at h
    · split at h
      · rename_i hv
        cases h
        exact ⟨rfl, (key _).1 hv⟩
      · cases h
    · cases h
  · rintro ⟨rfl, h⟩
    simp only [dSymb, (key _).2 h, if_true]

/-! ### Exactness -/

/-- A decoder reads only what is written, and all of what is written unless it is too deep. -/
structure Reads {α : Type} (d : Nat → Json → Option α) (W : α → Json → Prop) : Prop where
  sound : ∀ {n j a}, d n j = some a → W a j
  complete : ∀ {n j a}, W a j → j.depth < n → d n j = some a

theorem once_depth {l : List (String × Json)} {k : String} {v : Json} (h : Once l k v) : v.depth ≤ depthO l := by
  obtain ⟨pre, post, rfl, _⟩ := h
  exact depth_memO (k := k) (by simp)

theorem forall2_right {α β : Type} {R : α → β → Prop} {P : β → Prop} : ∀ {l : List α} {r : List β}, List.Forall₂ R l r → (∀ a b, R a b → P b) → ∀ b ∈ r, P b
  | _, _, .nil, _ => by simp
  | _, _, .cons h t, hp => by
    intro b hb
    rcases List.mem_cons.1 hb with rfl | hb
    · exact hp _ _ h
    · exact forall2_right t hp b hb

theorem objOf_depth {names : List String} {vs : List Json} {j : Json} (h : ObjOf names vs j) : ∀ v ∈ vs, v.depth < j.depth := by
  obtain ⟨l, rfl, h⟩ := h
  refine forall2_right h fun k v hv => ?_
  have := once_depth hv
  simp only [Json.depth]
  omega

theorem fields_depth {names : List String} {vs : List Json} {j : Json} (h : Fields names vs j) : ∀ v ∈ vs, v.depth < j.depth := by
  rcases h with h | ⟨rfl, _⟩
  · exact objOf_depth h
  · intro v hv
    have := depth_mem hv
    simp only [Json.depth]
    omega

theorem fields_pos {names : List String} {vs : List Json} {j : Json} (h : Fields names vs j) : 1 ≤ j.depth := by
  rcases h with ⟨l, rfl, _⟩ | ⟨rfl, _⟩ <;> simp [Json.depth]

theorem alt_depth {k : String} {v j : Json} (h : Alt k v j) : j.depth = v.depth + 1 := by
  cases h
  simp [Json.depth, depthO, depthP]

theorem rec_of {names : List String} {n : Nat} {j : Json} {vs : List Json} (h : Fields names vs j) (hd : j.depth < n) : dRec names n j = some vs := by
  have := fields_pos h
  exact (dRec_iff ..).2 ⟨by omega, h⟩

theorem flat_of {names : List String} {n : Nat} {j : Json} {vs : List Json} (h : ObjOf names vs j) (hd : j.depth < n) : dFlat names n j = some vs :=
  (dFlat_iff ..).2 ⟨hd, h⟩

theorem unit_of {α : Type} {f : String → Option α} {k : String} {a : α} {n : Nat} {j : Json} (h : UnitOf k j) (hk : f k = some a) (hd : j.depth < n) :
    dUnit f n j = some a := by
  refine (dUnit_iff ..).2 ⟨k, hk, ?_⟩
  rcases h with rfl | rfl
  · exact .inl rfl
  · refine .inr ⟨rfl, ?_⟩
    simp [Json.depth, depthO, depthP] at hd
    omega

theorem unit_sound {α : Type} {f : String → Option α} {n : Nat} {j : Json} {a : α} (h : dUnit f n j = some a) : ∃ k, f k = some a ∧ UnitOf k j := by
  obtain ⟨k, h1, h2⟩ := (dUnit_iff ..).1 h
  exact ⟨k, h1, h2.imp id fun h => h.1⟩

theorem forall2_imp {α β : Type} {R S : α → β → Prop} : ∀ {l : List α} {r : List β}, List.Forall₂ R l r → (∀ a b, b ∈ r → R a b → S a b) → List.Forall₂ S l r
  | _, _, .nil, _ => .nil
  | _, _, .cons h t, hp => .cons (hp _ _ (by simp) h) (forall2_imp t fun a b hb => hp a b (by simp [hb]))

/-- Elements of a list. -/
theorem arr_sound {α : Type} {d : Json → Option α} {W : α → Json → Prop} {n : Nat} {j : Json} {as : List α} (hs : ∀ j a, d j = some a → W a j)
    (h : dArr n d j = some as) : ArrOf W as j := by
  obtain ⟨_, l, rfl, h1⟩ := (dArr_iff ..).1 h
  exact ⟨l, rfl, forall2_imp h1 fun a b _ => hs b a⟩

theorem arr_of {α : Type} {d : Json → Option α} {W : α → Json → Prop} {n m : Nat} {j : Json} {as : List α}
    (hc : ∀ j a, W a j → j.depth < m → d j = some a) (h : ArrOf W as j) (hd : j.depth < n) (hm : j.depth ≤ m) : dArr n d j = some as := by
  obtain ⟨l, rfl, h⟩ := h
  simp only [Json.depth] at hd hm
  refine (dArr_iff ..).2 ⟨by omega, l, rfl, forall2_imp h fun a b hb hw => hc _ _ hw ?_⟩
  have := depth_mem hb
  omega

theorem reads_list {α : Type} {d : Nat → Json → Option α} {W : α → Json → Prop} (h : Reads d W) : Reads (dList d) (ArrOf W) where
  sound := fun h' => arr_sound (fun _ _ => h.sound) h'
  complete := by
    intro n j a h' hd
    exact arr_of (m := n - 1) (fun _ _ => h.complete) h' hd (by omega)

theorem reads_symb : Reads (fun _ => dSymb) SymbOf := ⟨fun h => (dSymb_iff ..).1 h, fun h _ => (dSymb_iff ..).2 h⟩

theorem reads_uint (b : Nat) : Reads (fun _ => dUint b) (NumOf b) := ⟨fun h => (dUint_iff ..).1 h, fun h _ => (dUint_iff ..).2 h⟩

/-! ### Names and types -/

theorem reads_path : Reads dPath PathOf where
  sound := by
    intro n j a h
    unfold dPath at h
    split at h
    · rename_i np s h1
      split at h
      · rename_i l h2
        simp only [Option.bind_eq_some_iff, Option.map_eq_some_iff] at h
        obtain ⟨l', h3, s', h4, rfl⟩ := h
        exact ⟨_, _, _, ((dRec_iff ..).1 h1).2, ((dRec_iff ..).1 h2).2, arr_sound (fun _ _ h => (dSymb_iff ..).1 h) h3, (dSymb_iff ..).1 h4⟩
      · cases h
    · cases h
  complete := by
    rintro n j a ⟨np, s, l, h1, h2, h3, h4⟩ hd
    have d1 := fields_depth h1
    have d2 := fields_depth h2
    simp only [List.mem_cons, List.not_mem_nil, or_false, forall_eq_or_imp, forall_eq] at d1 d2
    have e3 := arr_of (n := n - 2) (m := n) (fun _ _ h _ => (dSymb_iff ..).2 h) h3 (by omega) (by omega)
    simp only [dPath, rec_of h1 hd, rec_of h2 (show np.depth < n - 1 by omega), e3, (dSymb_iff ..).2 h4, Option.bind_some, Option.map_some]

theorem reads_ident : Reads dIdent fun x j => ∃ s, Fields ["name"] [s] j ∧ SymbOf x s where
  sound := by
    intro n j a h
    unfold dIdent at h
    split at h
    · rename_i s h1
      exact ⟨_, ((dRec_iff ..).1 h1).2, (dSymb_iff ..).1 h⟩
    · cases h
  complete := by
    rintro n j a ⟨s, h1, h2⟩ hd
    simp only [dIdent, rec_of h1 hd, (dSymb_iff ..).2 h2]

theorem reads_tvar : Reads dTVar WTVar where
  sound := by
    intro n j a h
    unfold dTVar at h
    split at h
    · rename_i s h1
      exact ⟨_, ((dFlat_iff ..).1 h1).2, (dSymb_iff ..).1 h⟩
    · cases h
  complete := by
    rintro n j a ⟨s, h1, h2⟩ hd
    simp only [dTVar, flat_of h1 hd, (dSymb_iff ..).2 h2]

theorem tyUnit_sound {n : Nat} {j : Json} {a : JTy} (h : dUnit tyUnit n j = some a) : WTy a j := by
  obtain ⟨k, h1, h2⟩ := unit_sound h
  unfold tyUnit at h1
  split at h1 <;> cases h1
  · exact .message _ h2
  · exact .boolean _ h2
  · exact .index _ h2
  · exact .timestamp _ h2
  · exact .name _ h2

theorem sort_sound : ∀ (n : Nat) (j : Json) (a : JTy), dSort n j = some a → WTy a j := by
  intro n
  induction n using Nat.strongRecOn with
  | ind n ih =>
    intro j a h
    match n, ih, h with
    | 0, _, h => exact tyUnit_sound (by rw [dSort] at h; exact h)
    | 1, _, h => exact tyUnit_sound (by rw [dSort] at h; exact h)
    | n + 2, ih, h =>
      unfold dSort at h
      split at h
      · rename_i v
        simp only [Option.map_eq_some_iff] at h
        obtain ⟨p, h1, rfl⟩ := h
        exact .tbase _ _ _ rfl (reads_path.sound h1)
      · rename_i v
        split at h
        · rename_i s h1
          simp only [Option.map_eq_some_iff] at h
          obtain ⟨x, h2, rfl⟩ := h
          exact .tvar _ _ _ _ rfl ((dFlat_iff ..).1 h1).2 ((dSymb_iff ..).1 h2)
        · cases h
      · rename_i v
        split at h
        · rename_i s h1
          simp only [Option.map_eq_some_iff] at h
          obtain ⟨x, h2, rfl⟩ := h
          exact .tunivar _ _ _ _ rfl ((dFlat_iff ..).1 h1).2 ((dSymb_iff ..).1 h2)
        · cases h
      · rename_i v
        split at h
        · rename_i e h1
          split at h
          · cases h
          · rename_i m
            simp only [Option.map_eq_some_iff] at h
            obtain ⟨els, h2, rfl⟩ := h
            obtain ⟨l, rfl, h3⟩ := arr_sound (W := WTy) (fun j a h => ih m (by omega) j a h) h2
            exact .tuple _ _ _ _ rfl ((dRec_iff ..).1 h1).2 h3
        · cases h
      · rename_i v
        split at h
        · rename_i x y h1
          simp only [Option.bind_eq_some_iff, Option.map_eq_some_iff] at h
          obtain ⟨s, h2, t, h3, rfl⟩ := h
          exact .fun_ _ _ _ _ _ _ rfl ((dRec_iff ..).1 h1).2 (ih n (by omega) _ _ h2) (ih n (by omega) _ _ h3)
        · cases h
      · exact tyUnit_sound h

theorem dSort_unit {n : Nat} {k : String} {a : JTy} {j : Json} (h : UnitOf k j) (hk : tyUnit k = some a) (hd : j.depth < n) : dSort n j = some a := by
  have hu : dUnit tyUnit n j = some a := unit_of h hk hd
  match n with
  | 0 => omega
  | 1 => rw [dSort]; exact hu
  | n + 2 =>
    rcases h with rfl | rfl
    · rw [dSort]
      · exact hu
      all_goals (intro v hv; cases hv)
    · rw [dSort]
      · exact hu
      all_goals
        intro v hv
        cases hv
        simp [tyUnit] at hk

theorem sort_complete : ∀ (n : Nat) (j : Json) (a : JTy), WTy a j → j.depth < n → dSort n j = some a := by
  intro n
  induction n using Nat.strongRecOn with
  | ind n ih =>
    intro j a h hd
    cases h with
    | message _ h => exact dSort_unit h rfl hd
    | boolean _ h => exact dSort_unit h rfl hd
    | index _ h => exact dSort_unit h rfl hd
    | timestamp _ h => exact dSort_unit h rfl hd
    | name _ h => exact dSort_unit h rfl hd
    | tbase p v _ h1 h2 =>
      have := alt_depth h1
      cases h1
      obtain ⟨np, s, l, h3, _⟩ := h2
      have := fields_pos h3
      obtain ⟨m, rfl⟩ : ∃ m, n = m + 2 := ⟨n - 2, by omega⟩
      rw [dSort]
      simp [reads_path.complete ⟨np, s, l, h3, by assumption⟩ (show v.depth < m + 1 by omega)]
    | tvar v s x _ h1 h2 h3 =>
      have := alt_depth h1
      cases h1
      have := objOf_depth h2 s (by simp)
      obtain ⟨m, rfl⟩ : ∃ m, n = m + 2 := ⟨n - 2, by omega⟩
      rw [dSort]
      simp [flat_of h2 (show v.depth < m + 1 by omega), (dSymb_iff ..).2 h3]
    | tunivar v s x _ h1 h2 h3 =>
      have := alt_depth h1
      cases h1
      have := objOf_depth h2 s (by simp)
      obtain ⟨m, rfl⟩ : ∃ m, n = m + 2 := ⟨n - 2, by omega⟩
      rw [dSort]
      simp [flat_of h2 (show v.depth < m + 1 by omega), (dSymb_iff ..).2 h3]
    | tuple els v l _ h1 h2 h3 =>
      have := alt_depth h1
      cases h1
      have := fields_depth h2 (.arr l) (by simp)
      have hl : 1 ≤ (Json.arr l).depth := by simp [Json.depth]
      obtain ⟨m, rfl⟩ : ∃ m, n = m + 3 := ⟨n - 3, by omega⟩
      rw [dSort]
      have e := arr_of (d := dSort m) (W := WTy) (n := m + 1) (m := m) (fun j a h hd => ih m (by omega) j a h hd) ⟨l, rfl, h3⟩ (by omega) (by omega)
      simp [rec_of h2 (show v.depth < m + 2 by omega), e]
    | fun_ s t v a b _ h1 h2 h3 h4 =>
      have := alt_depth h1
      cases h1
      have d1 := fields_depth h2 a (by simp)
      have d2 := fields_depth h2 b (by simp)
      obtain ⟨m, rfl⟩ : ∃ m, n = m + 2 := ⟨n - 2, by omega⟩
      rw [dSort]
      simp [rec_of h2 (show v.depth < m + 1 by omega), ih m (by omega) a s h3 (by omega), ih m (by omega) b t h4 (by omega)]

theorem reads_sort : Reads dSort WTy := ⟨fun h => sort_sound _ _ _ h, fun h hd => sort_complete _ _ _ h hd⟩

theorem reads_var : Reads dVar WVar where
  sound := by
    intro n j a h
    unfold dVar at h
    split at h
    · rename_i i t h1
      simp only [Option.bind_eq_some_iff, Option.map_eq_some_iff] at h
      obtain ⟨x, h2, ty, h3, rfl⟩ := h
      obtain ⟨s, h4, h5⟩ := reads_ident.sound h2
      exact ⟨_, _, _, ((dRec_iff ..).1 h1).2, h4, h5, reads_sort.sound h3⟩
    · cases h
  complete := by
    rintro n j a ⟨i, t, s, h1, h2, h3, h4⟩ hd
    have d1 := fields_depth h1
    simp only [List.mem_cons, List.not_mem_nil, or_false, forall_eq_or_imp, forall_eq] at d1
    simp only [dVar, rec_of h1 hd, reads_ident.complete ⟨s, h2, h3⟩ (show i.depth < n - 1 by omega),
      reads_sort.complete h4 (show t.depth < n - 1 by omega), Option.bind_some, Option.map_some]

theorem reads_isymb : Reads dISymb WISymb where
  sound := by
    intro n j a h
    unfold dISymb at h
    split at h
    · rename_i s t h1
      simp only [Option.bind_eq_some_iff, Option.map_eq_some_iff] at h
      obtain ⟨x, h2, ty, h3, rfl⟩ := h
      exact ⟨_, _, _, ((dRec_iff ..).1 h1).2, reads_path.sound h2, reads_sort.sound h3⟩
    · cases h
  complete := by
    rintro n j a ⟨s, t, ty, h1, h2, h3⟩ hd
    have d1 := fields_depth h1
    simp only [List.mem_cons, List.not_mem_nil, or_false, forall_eq_or_imp, forall_eq] at d1
    simp only [dISymb, rec_of h1 hd, reads_path.complete h2 (show s.depth < n - 1 by omega),
      reads_sort.complete h3 (show t.depth < n - 1 by omega), Option.bind_some, Option.map_some]

/-! ### Terms -/

theorem quantOf_iff (k : String) (q : JQ) : quantOf k = some q ↔ k = quantName q := by
  constructor
  · intro h
    unfold quantOf at h
    split at h <;> cases h <;> rfl
  · rintro rfl
    cases q <;> rfl

theorem diff_sound {n : Nat} {e : Json} {d : String × JT} {g : Json → Option JT} (hg : ∀ t a, g t = some a → WTm a t)
    (h : (match dRec ["proj", "term"] n e with
          | some [p, t] => (dSymb p).bind fun p => (g t).map fun t => (p, t)
          | _ => none) = some d) : WDiff d e := by
  split at h
  · rename_i p t h1
    simp only [Option.bind_eq_some_iff, Option.map_eq_some_iff] at h
    obtain ⟨x, h2, y, h3, rfl⟩ := h
    exact .mk _ _ _ _ _ ((dRec_iff ..).1 h1).2 ((dSymb_iff ..).1 h2) (hg _ _ h3)
  · cases h

theorem term_sound : ∀ (n : Nat) (j : Json) (a : JT), dTerm n j = some a → WTm a j := by
  intro n
  induction n using Nat.strongRecOn with
  | ind n ih =>
    intro j a h
    match n, ih, h with
    | 0, _, h => cases h
    | 1, _, h => cases h
    | 2, _, h => cases h
    | n + 3, ih, h =>
      have i1 := ih (n + 1) (by omega)
      have i0 : ∀ {m j as}, dArr m (dTerm n) j = some as → ArrOf WTm as j := fun h => arr_sound (fun j a h => ih n (by omega) j a h) h
      unfold dTerm at h
      split at h
      · split at h
        · rename_i f l h1
          simp only [Option.bind_eq_some_iff, Option.map_eq_some_iff] at h
          obtain ⟨f', h2, l', h3, rfl⟩ := h
          obtain ⟨l, rfl, h4⟩ := i0 h3
          exact .app _ _ _ _ _ _ rfl ((dRec_iff ..).1 h1).2 (i1 _ _ h2) h4
        · cases h
      · split at h
        · rename_i s h1
          simp only [Option.map_eq_some_iff] at h
          obtain ⟨p, h2, rfl⟩ := h
          exact .fun_ _ _ _ _ rfl ((dRec_iff ..).1 h1).2 (reads_path.sound h2)
        · cases h
      · split at h
        · rename_i f l h1
          simp only [Option.bind_eq_some_iff, Option.map_eq_some_iff] at h
          obtain ⟨f', h2, l', h3, rfl⟩ := h
          obtain ⟨l, rfl, h4⟩ := i0 h3
          exact .name _ _ _ _ _ _ rfl ((dRec_iff ..).1 h1).2 (reads_isymb.sound h2) h4
        · cases h
      · split at h
        · rename_i f l t h1
          simp only [Option.bind_eq_some_iff, Option.map_eq_some_iff] at h
          obtain ⟨f', h2, l', h3, t', h5, rfl⟩ := h
          obtain ⟨l, rfl, h4⟩ := i0 h3
          exact .mac _ _ _ _ _ _ _ _ rfl ((dRec_iff ..).1 h1).2 (reads_isymb.sound h2) h4 (i1 _ _ h5)
        · cases h
      · split at h
        · rename_i f l h1
          simp only [Option.bind_eq_some_iff, Option.map_eq_some_iff] at h
          obtain ⟨f', h2, l', h3, rfl⟩ := h
          obtain ⟨l, rfl, h4⟩ := i0 h3
          exact .action _ _ _ _ _ _ rfl ((dRec_iff ..).1 h1).2 (reads_path.sound h2) h4
        · cases h
      · split at h
        · rename_i i t h1
          simp only [Option.bind_eq_some_iff, Option.map_eq_some_iff] at h
          obtain ⟨x, h2, ty, h3, rfl⟩ := h
          obtain ⟨s, h4, h5⟩ := reads_ident.sound h2
          exact .var _ _ _ _ _ _ rfl ((dFlat_iff ..).1 h1).2 h4 h5 (reads_sort.sound h3)
        · cases h
      · split at h
        · rename_i x y z h1
          simp only [Option.bind_eq_some_iff, Option.map_eq_some_iff] at h
          obtain ⟨x', h2, y', h3, z', h4, rfl⟩ := h
          exact .letin _ _ _ _ _ _ _ _ rfl ((dRec_iff ..).1 h1).2 (i1 _ _ h2) (i1 _ _ h3) (i1 _ _ h4)
        · cases h
      · split at h
        · rename_i e h1
          simp only [Option.map_eq_some_iff] at h
          obtain ⟨els, h2, rfl⟩ := h
          obtain ⟨l, rfl, h4⟩ := i0 h2
          exact .tuple _ _ _ _ rfl ((dRec_iff ..).1 h1).2 h4
        · cases h
      · split at h
        · rename_i x y h1
          simp only [Option.bind_eq_some_iff, Option.map_eq_some_iff] at h
          obtain ⟨x', h2, y', h3, rfl⟩ := h
          exact .proj _ _ _ _ _ _ rfl ((dRec_iff ..).1 h1).2 ((dUint_iff ..).1 h2) (i1 _ _ h3)
        · cases h
      · split at h
        · rename_i ts h1
          simp only [Option.map_eq_some_iff] at h
          obtain ⟨ds, h2, rfl⟩ := h
          obtain ⟨l, rfl, h4⟩ := arr_sound (W := WDiff) (fun e d hd => diff_sound (fun t a h => by
            revert h
            split
            · intro h; cases h
            · rename_i m; exact ih m (by omega) t a) hd) h2
          exact .diff _ _ _ _ rfl ((dRec_iff ..).1 h1).2 h4
        · cases h
      · split at h
        · rename_i l x y z h1
          simp only [Option.bind_eq_some_iff, Option.map_eq_some_iff] at h
          obtain ⟨l', h2, x', h3, y', h4, z', h5, rfl⟩ := h
          obtain ⟨l, rfl, h6⟩ := i0 h2
          exact .find _ _ _ _ _ _ _ _ _ _ rfl ((dRec_iff ..).1 h1).2 h6 (i1 _ _ h3) (i1 _ _ h4) (i1 _ _ h5)
        · cases h
      · split at h
        · rename_i q l b h1
          simp only [Option.bind_eq_some_iff, Option.map_eq_some_iff] at h
          obtain ⟨q', h2, l', h3, b', h4, rfl⟩ := h
          obtain ⟨l, rfl, h5⟩ := i0 h3
          obtain ⟨k, h6, h7⟩ := unit_sound h2
          obtain rfl := (quantOf_iff _ _).1 h6
          exact .quant _ _ _ _ _ _ _ _ rfl ((dRec_iff ..).1 h1).2 h7 h5 (i1 _ _ h4)
        · cases h
      · cases h

theorem term_complete : ∀ (n : Nat) (j : Json) (a : JT), WTm a j → j.depth < n → dTerm n j = some a := by
  intro n
  induction n using Nat.strongRecOn with
  | ind n ih =>
    intro j a h hd
    have dd : ∀ {names w vs k}, Alt k w j → Fields names vs w → ∃ m, n = m + 3 := by
      intro names w vs k h1 h2
      have := alt_depth h1
      have := fields_pos h2
      exact ⟨n - 3, by omega⟩
    have hl : ∀ l, 1 ≤ (Json.arr l).depth := by intro l; simp [Json.depth]
    have ia : ∀ {m l as}, n = m + 3 → List.Forall₂ WTm as l → (Json.arr l).depth < m + 1 → dArr (m + 1) (dTerm m) (.arr l) = some as := by
      intro m l as hm h hd
      exact arr_of (W := WTm) (m := m) (fun j a h hd => ih m (by omega) j a h hd) ⟨l, rfl, h⟩ hd (by omega)
    cases h with
    | app f args w a l _ h1 h2 h3 h4 =>
      obtain ⟨m, rfl⟩ := dd h1 h2
      have := alt_depth h1
      cases h1
      have d1 := fields_depth h2
      simp only [List.mem_cons, List.not_mem_nil, or_false, forall_eq_or_imp, forall_eq] at d1
      simp only [dTerm, rec_of h2 (show w.depth < m + 2 by omega), ih (m + 1) (by omega) a f h3 (by omega), ia rfl h4 (by omega), Option.bind_some, Option.map_some]
    | fun_ p w a _ h1 h2 h3 =>
      obtain ⟨m, rfl⟩ := dd h1 h2
      have := alt_depth h1
      cases h1
      have d1 := fields_depth h2
      simp only [List.mem_cons, List.not_mem_nil, or_false, forall_eq_or_imp, forall_eq] at d1
      simp only [dTerm, rec_of h2 (show w.depth < m + 2 by omega), reads_path.complete h3 (show a.depth < m + 1 by omega), Option.bind_some, Option.map_some]
    | name p args w a l _ h1 h2 h3 h4 =>
      obtain ⟨m, rfl⟩ := dd h1 h2
      have := alt_depth h1
      cases h1
      have d1 := fields_depth h2
      simp only [List.mem_cons, List.not_mem_nil, or_false, forall_eq_or_imp, forall_eq] at d1
      simp only [dTerm, rec_of h2 (show w.depth < m + 2 by omega), reads_isymb.complete h3 (show a.depth < m + 1 by omega), ia rfl h4 (by omega), Option.bind_some, Option.map_some]
    | mac p args ts w a l t _ h1 h2 h3 h4 h5 =>
      obtain ⟨m, rfl⟩ := dd h1 h2
      have := alt_depth h1
      cases h1
      have d1 := fields_depth h2
      simp only [List.mem_cons, List.not_mem_nil, or_false, forall_eq_or_imp, forall_eq] at d1
      simp only [dTerm, rec_of h2 (show w.depth < m + 2 by omega), reads_isymb.complete h3 (show a.depth < m + 1 by omega), ia rfl h4 (by omega),
        ih (m + 1) (by omega) t ts h5 (by omega), Option.bind_some, Option.map_some]
    | action p args w a l _ h1 h2 h3 h4 =>
      obtain ⟨m, rfl⟩ := dd h1 h2
      have := alt_depth h1
      cases h1
      have d1 := fields_depth h2
      simp only [List.mem_cons, List.not_mem_nil, or_false, forall_eq_or_imp, forall_eq] at d1
      simp only [dTerm, rec_of h2 (show w.depth < m + 2 by omega), reads_path.complete h3 (show a.depth < m + 1 by omega), ia rfl h4 (by omega), Option.bind_some, Option.map_some]
    | var v w i t s _ h1 h2 h3 h4 h5 =>
      obtain ⟨m, rfl⟩ := dd h1 (.inl h2)
      have := alt_depth h1
      cases h1
      have d1 := objOf_depth h2
      simp only [List.mem_cons, List.not_mem_nil, or_false, forall_eq_or_imp, forall_eq] at d1
      simp only [dTerm, flat_of h2 (show w.depth < m + 2 by omega), reads_ident.complete ⟨s, h3, h4⟩ (show i.depth < m + 1 by omega),
        reads_sort.complete h5 (show t.depth < m + 1 by omega), Option.bind_some, Option.map_some]
    | letin v d b w x y z _ h1 h2 h3 h4 h5 =>
      obtain ⟨m, rfl⟩ := dd h1 h2
      have := alt_depth h1
      cases h1
      have d1 := fields_depth h2
      simp only [List.mem_cons, List.not_mem_nil, or_false, forall_eq_or_imp, forall_eq] at d1
      simp only [dTerm, rec_of h2 (show w.depth < m + 2 by omega), ih (m + 1) (by omega) x v h3 (by omega), ih (m + 1) (by omega) y d h4 (by omega),
        ih (m + 1) (by omega) z b h5 (by omega), Option.bind_some, Option.map_some]
    | tuple els w l _ h1 h2 h3 =>
      obtain ⟨m, rfl⟩ := dd h1 h2
      have := alt_depth h1
      cases h1
      have d1 := fields_depth h2
      simp only [List.mem_cons, List.not_mem_nil, or_false, forall_eq_or_imp, forall_eq] at d1
      simp only [dTerm, rec_of h2 (show w.depth < m + 2 by omega), ia rfl h3 (by omega), Option.bind_some, Option.map_some]
    | proj i b w x y _ h1 h2 h3 h4 =>
      obtain ⟨m, rfl⟩ := dd h1 h2
      have := alt_depth h1
      cases h1
      have d1 := fields_depth h2
      simp only [List.mem_cons, List.not_mem_nil, or_false, forall_eq_or_imp, forall_eq] at d1
      simp only [dTerm, rec_of h2 (show w.depth < m + 2 by omega), (dUint_iff ..).2 h3, ih (m + 1) (by omega) y b h4 (by omega), Option.bind_some, Option.map_some]
    | diff ts w l _ h1 h2 h3 =>
      obtain ⟨m, rfl⟩ := dd h1 h2
      have := alt_depth h1
      cases h1
      have d1 := fields_depth h2
      simp only [List.mem_cons, List.not_mem_nil, or_false, forall_eq_or_imp, forall_eq] at d1
      have e := arr_of (W := WDiff) (n := m + 1) (m := m) (as := ts) (j := .arr l) (d := fun e => match dRec ["proj", "term"] m e with
          | some [p, t] => (dSymb p).bind fun p => (match m with | 0 => none | m + 1 => dTerm m t).map fun t => (p, t)
          | _ => none) (by
        rintro e d ⟨s, t, x, y, _, h5, h6, h7⟩ hd
        have d2 := fields_depth h5
        simp only [List.mem_cons, List.not_mem_nil, or_false, forall_eq_or_imp, forall_eq] at d2
        obtain ⟨m', rfl⟩ : ∃ m', m = m' + 1 := ⟨m - 1, by omega⟩
        simp only [rec_of h5 hd, (dSymb_iff ..).2 h6, ih m' (by omega) y t h7 (by omega), Option.bind_some, Option.map_some]) ⟨l, rfl, h3⟩ (by omega) (by omega)
      simp only [dTerm, rec_of h2 (show w.depth < m + 2 by omega), Option.bind_some, Option.map_some]
      exact congrArg (Option.map JT.diff) e
    | find vs c s f w l x y z _ h1 h2 h3 h4 h5 h6 =>
      obtain ⟨m, rfl⟩ := dd h1 h2
      have := alt_depth h1
      cases h1
      have d1 := fields_depth h2
      simp only [List.mem_cons, List.not_mem_nil, or_false, forall_eq_or_imp, forall_eq] at d1
      simp only [dTerm, rec_of h2 (show w.depth < m + 2 by omega), ia rfl h3 (by omega), ih (m + 1) (by omega) x c h4 (by omega),
        ih (m + 1) (by omega) y s h5 (by omega), ih (m + 1) (by omega) z f h6 (by omega), Option.bind_some, Option.map_some]
    | quant q vs b w x l y _ h1 h2 h3 h4 h5 =>
      obtain ⟨m, rfl⟩ := dd h1 h2
      have := alt_depth h1
      cases h1
      have d1 := fields_depth h2
      simp only [List.mem_cons, List.not_mem_nil, or_false, forall_eq_or_imp, forall_eq] at d1
      have e := unit_of (f := quantOf) (n := m + 1) h3 ((quantOf_iff _ q).2 rfl) (by omega)
      simp only [dTerm, rec_of h2 (show w.depth < m + 2 by omega), ia rfl h4 (by omega), ih (m + 1) (by omega) y b h5 (by omega), e, Option.bind_some, Option.map_some]

theorem reads_term : Reads dTerm WTm := ⟨fun h => term_sound _ _ _ h, fun h hd => term_complete _ _ _ h hd⟩

end Sq
end CV
