/-
Properties C86 and C87: strings that may be borrowed (`StrRef`) and values that may be borrowed (`MOw`) as keys of maps; collecting
iterators into arrays. Models string_ref.rs, maybe_owned.rs and iter_array.rs of /repo/crates/utils/src. Reference counts and
lifetimes are erased.
-/
set_option linter.unusedSimpArgs false

namespace CV
namespace Key

/-! ### string_ref.rs -/

/-- Models `Inner` (string_ref.rs:25-29). -/
inductive Inner
  | borrowed (s : String)
  | owned (s : String)
  deriving DecidableEq

/-- Models `StrRef` (string_ref.rs:18-23); `V` is the type of the validator. -/
structure StrRef (V : Type) where
  validator : V
  inner : Inner
  deriving DecidableEq

variable {V : Type}

/-- Models `as_ref` (string_ref.rs:196-204), which `as_str`, `Deref`, `Borrow` and `Display` call (56-58, 231-252). -/
def Inner.str : Inner → String
  | .borrowed s => s
  | .owned s => s
def StrRef.str (r : StrRef V) : String := r.inner.str

/-- Models `into_owned` (string_ref.rs:39-54). -/
def StrRef.intoOwned (r : StrRef V) : StrRef V :=
  match r.inner with
  | .borrowed b => ⟨r.validator, .owned b⟩
  | .owned o => ⟨r.validator, .owned o⟩

/-- Models `drop_guard` (string_ref.rs:60-66); the trivial validator has one value. -/
def StrRef.dropGuard (r : StrRef V) : StrRef Unit := ⟨(), r.inner⟩

/-- Models `From<&StrRef>` (string_ref.rs:185-194). -/
def StrRef.reborrow (r : StrRef V) : StrRef V := ⟨r.validator, .borrowed r.str⟩

/-- Models `Validator` (string_ref.rs:350-352) with `Default`, which the constructors ask for. -/
structure Val (V : Type) where
  validate : V → String → Bool
  dflt : V

/-- Models `new_owned` and `new_borrowed` (string_ref.rs:73-99): `none` is the error. -/
def newOwned (W : Val V) (s : String) : Option (StrRef V) :=
  if W.validate W.dflt s then some ⟨W.dflt, .owned s⟩ else none
def newBorrowed (W : Val V) (s : String) : Option (StrRef V) :=
  if W.validate W.dflt s then some ⟨W.dflt, .borrowed s⟩ else none

/-- Models `visit_str`, `visit_string` and `visit_borrowed_str` (string_ref.rs:300-319); `fromInput` says whether the text can be
borrowed from the input. -/
def deserialize (W : Val V) (fromInput : Bool) (s : String) : Option (StrRef V) :=
  if fromInput then newBorrowed W s else newOwned W s

/-- Models `serialize` (string_ref.rs:333-340). -/
def StrRef.serialize (r : StrRef V) : String := r.str

/-- What is given to the hasher for a `str`: its bytes and `0xff` (std). -/
def feedStr (s : String) : List UInt8 := s.toUTF8.toList ++ [0xff]

/-- Models `eq`, `cmp` and `hash` (string_ref.rs:120-144). Rust compares bytes, `compare` code points: in UTF-8 this is the same order. -/
def StrRef.eq (a b : StrRef V) : Bool := a.str == b.str
def StrRef.cmp (a b : StrRef V) : Ordering := compare a.str b.str
def StrRef.feed (r : StrRef V) : List UInt8 := feedStr r.str

/-- Models `Equivalent<String>` (string_ref.rs:254-259). -/
def StrRef.equivalent (r : StrRef V) (key : String) : Bool := r.str == key

/-! ### maybe_owned.rs -/

/-- Models `MOw` (maybe_owned.rs:3-7). -/
inductive MOw (T : Type)
  | owned (t : T)
  | borrowed (t : T)

/-- Models `deref` and `borrow` (maybe_owned.rs:9-24). -/
def MOw.get {T : Type} : MOw T → T
  | .owned t => t
  | .borrowed t => t

/-- The derived `PartialEq`: the same variant. -/
def MOw.eq {T : Type} (e : T → T → Bool) : MOw T → MOw T → Bool
  | .owned a, .owned b => e a b
  | .borrowed a, .borrowed b => e a b
  | _, _ => false

/-- The derived `Ord`: first the variants. -/
def MOw.cmp {T : Type} (c : T → T → Ordering) : MOw T → MOw T → Ordering
  | .owned a, .owned b => c a b
  | .borrowed a, .borrowed b => c a b
  | .owned _, .borrowed _ => .lt
  | .borrowed _, .owned _ => .gt

/-- The derived `Hash`: the number of the variant (an `isize`, 8 bytes) first. -/
def MOw.feed {T : Type} (h : T → List UInt8) : MOw T → List UInt8
  | .owned t => [0, 0, 0, 0, 0, 0, 0, 0] ++ h t
  | .borrowed t => [1, 0, 0, 0, 0, 0, 0, 0] ++ h t

/-! ### iter_array.rs -/

/-- Models `WrongLengthError` (iter_array.rs:5-11). -/
inductive Wrong
  | tooMany
  | notEnough
  deriving DecidableEq

/-- Models `collect_array` (iter_array.rs:58-72): the array and what is left. -/
def collectArray {α : Type} (n : Nat) (l : List α) : Option (List α × List α) :=
  if (l.take n).length = n then some (l.take n, l.drop n) else none

/-- Models `collect_array_exact` (iter_array.rs:45-55). -/
def exact {A B : Type} : Option (A × List B) → Except Wrong A
  | none => .error .notEnough
  | some (a, []) => .ok a
  | some (_, _ :: _) => .error .tooMany

/-- `iter.by_ref().take(n).collect::<Result<Vec<_>, _>>()`: stops after the first error. -/
def takeRes {E α : Type} : Nat → List (Except E α) → Except E (List α) × List (Except E α)
  | 0, l => (.ok [], l)
  | _ + 1, [] => (.ok [], [])
  | _ + 1, .error e :: l => (.error e, l)
  | n + 1, .ok a :: l =>
    match takeRes n l with
    | (.ok as, r) => (.ok (a :: as), r)
    | (.error e, r) => (.error e, r)

/-- The values of `filter_map(|x| x.ok())`. -/
def oks {E α : Type} (l : List (Except E α)) : List α := l.filterMap Except.toOption

/-- Models `collect_array` on results (iter_array.rs:74-92). -/
def collectRes {E α : Type} (n : Nat) (l : List (Except E α)) : Option (Except E (List α) × List α) :=
  match takeRes n l with
  | (.error e, r) => some (.error e, oks r)
  | (.ok v, r) => if v.length = n then some (.ok v, oks r) else none

/-- Models `collect_array` on options (iter_array.rs:94-112). -/
def collectOpt {α : Type} (n : Nat) (l : List (Option α)) : Option (Option (List α) × List α) :=
  match takeRes n (l.map fun | some a => .ok a | none => (.error () : Except Unit α)) with
  | (.error _, r) => some (none, oks r)
  | (.ok v, r) => if v.length = n then some (some v, oks r) else none

/-! ## Specification -/

/-- SPECIFICATION. What `std::borrow::Borrow` asks of a key `K` that is looked up as a `B`: equality, order and hash are those of what
is borrowed. -/
structure BorrowOK {K B : Type} (borrow : K → B) (eq : K → K → Bool) (cmp : K → K → Ordering) (feed : K → List UInt8)
    (eqB : B → B → Bool) (cmpB : B → B → Ordering) (feedB : B → List UInt8) : Prop where
  eq : ∀ a b, eq a b = eqB (borrow a) (borrow b)
  cmp : ∀ a b, cmp a b = cmpB (borrow a) (borrow b)
  hash : ∀ a, feed a = feedB (borrow a)

/-- SPECIFICATION. The strings that can be made with a validator, by any sequence of the operations. -/
inductive Made (W : Val V) : StrRef V → String → Prop
  | owned {s r} : newOwned W s = some r → Made W r s
  | borrowed {s r} : newBorrowed W s = some r → Made W r s
  | read {s r b} : deserialize W b s = some r → Made W r s
  | into {s r} : Made W r s → Made W r.intoOwned s
  | ref {s r} : Made W r s → Made W r.reborrow s

/-- SPECIFICATION. An array of exactly `n` elements. -/
def ExactSpec {α : Type} (n : Nat) (l : List α) : Except Wrong (List α) → Prop
  | .ok a => a = l ∧ l.length = n
  | .error .tooMany => n < l.length
  | .error .notEnough => l.length < n

/-- SPECIFICATION. On results: the length is checked, and an error is returned if there is one, the first one. -/
def ExactResSpec {E α : Type} (n : Nat) (l : List (Except E α)) : Except Wrong (Except E (List α)) → Prop
  | .ok (.ok a) => l = a.map .ok ∧ l.length = n
  | .ok (.error e) => ∃ (a : List α) (r : List (Except E α)), l = a.map .ok ++ .error e :: r
  | .error .tooMany => n < l.length
  | .error .notEnough => l.length < n

/-- SPECIFICATION. A hash table (`std::collections::HashMap`, by its documented behaviour): buckets by hash; `insert` replaces the value
of an equal key, `get` takes what is borrowed, hashes it and compares it with what the keys of the bucket lend. -/
def HTable (K β : Type) : Type := Nat → List (K × β)
def HTable.empty {K β : Type} : HTable K β := fun _ => []
def upd {K β : Type} (eq : K → K → Bool) (k : K) (v : β) : List (K × β) → List (K × β)
  | [] => [(k, v)]
  | (k', v') :: l => if eq k' k then (k', v) :: l else (k', v') :: upd eq k v l
def HTable.insert {K β : Type} (H : List UInt8 → Nat) (feed : K → List UInt8) (eq : K → K → Bool) (t : HTable K β) (p : K × β) :
    HTable K β :=
  fun i => if i = H (feed p.1) then upd eq p.1 p.2 (t i) else t i
def HTable.get {K B β : Type} (H : List UInt8 → Nat) (feedB : B → List UInt8) (eqB : B → B → Bool) (borrow : K → B) (t : HTable K β)
    (b : B) : Option β :=
  ((t (H (feedB b))).find? fun p => eqB (borrow p.1) b).map Prod.snd

/-- SPECIFICATION. What was stored last under something. -/
def lastUnder {K B β : Type} (eqB : B → B → Bool) (borrow : K → B) (ops : List (K × β)) (b : B) : Option β :=
  (ops.reverse.find? fun p => eqB (borrow p.1) b).map Prod.snd

/-! ## C86 -/

/-- **C86 (keys).** A string, borrowed or owned, is the same key as its text. -/
theorem C86_key : BorrowOK (StrRef.str (V := V)) StrRef.eq StrRef.cmp StrRef.feed (· == ·) compare feedStr :=
  ⟨fun _ _ => rfl, fun _ _ => rfl, fun _ => rfl⟩

/-- **C86 (contents).** Whatever the sequence of operations, the text is the one that was given, the validator accepts it, it does not
matter whether it is borrowed, and it is written as it was read. -/
theorem C86_contents (W : Val V) (r : StrRef V) (s : String) (h : Made W r s) :
    r.str = s ∧ W.validate r.validator s = true ∧ r.dropGuard.str = s ∧ r.serialize = s ∧
      (∀ key, r.equivalent key = true ↔ key = s) ∧ ∀ b, (deserialize W b r.serialize).map StrRef.str = some s := by
  have key : r.str = s ∧ r.validator = W.dflt ∧ W.validate W.dflt s = true := by
    have ho : ∀ {s r}, newOwned W s = some r → r.str = s ∧ r.validator = W.dflt ∧ W.validate W.dflt s = true := by
      intro s r h
      simp only [newOwned, Option.ite_none_right_eq_some, Option.some.injEq] at h
      obtain ⟨h, rfl⟩ := h
      exact ⟨rfl, rfl, h⟩
    have hb : ∀ {s r}, newBorrowed W s = some r → r.str = s ∧ r.validator = W.dflt ∧ W.validate W.dflt s = true := by
      intro s r h
      simp only [newBorrowed, Option.ite_none_right_eq_some, Option.some.injEq] at h
      obtain ⟨h, rfl⟩ := h
      exact ⟨rfl, rfl, h⟩
    induction h with
    | owned h => exact ho h
    | borrowed h => exact hb h
    | @read s r b h =>
      cases b
      · exact ho h
      · exact hb h
    | @into s r _ ih =>
      obtain ⟨v, i⟩ := r
      cases i <;> exact ih
    | ref _ ih => exact ih
  obtain ⟨h1, h2, h3⟩ := key
  refine ⟨h1, h2 ▸ h3, h1, h1, fun k => ?_, fun b => ?_⟩
  · simp only [StrRef.equivalent, h1, beq_iff_eq]
    exact eq_comm
  · simp only [StrRef.serialize, h1]
    cases b <;> simp [deserialize, newOwned, newBorrowed, h3, StrRef.str, Inner.str]

/-- **C86 (refused).** A text that the validator does not accept is never made. -/
theorem C86_refused (W : Val V) (s : String) (h : W.validate W.dflt s = false) : ¬ ∃ r, Made W r s := by
  rintro ⟨r, hm⟩
  induction hm with
  | owned h' => simp [newOwned, h] at h'
  | borrowed h' => simp [newBorrowed, h] at h'
  | @read s r b h' => cases b <;> simp [deserialize, newOwned, newBorrowed, h] at h'
  | into _ ih => exact ih h
  | ref _ ih => exact ih h

theorem find_upd {K B β : Type} (eq : K → K → Bool) (eqB : B → B → Bool) (borrow : K → B)
    (hq : ∀ a b, eq a b = eqB (borrow a) (borrow b)) (hB : ∀ a b, eqB a b = true ↔ a = b) (k : K) (v : β) (b : B) (l : List (K × β)) :
    ((upd eq k v l).find? fun p => eqB (borrow p.1) b).map Prod.snd =
      if eqB (borrow k) b then some v else (l.find? fun p => eqB (borrow p.1) b).map Prod.snd := by
  induction l with
  | nil =>
    by_cases h : borrow k = b
    · simp [upd, (hB _ _).2 h]
    · have : eqB (borrow k) b = false := by rw [← Bool.not_eq_true, hB]; exact h
      simp [upd, this]
  | cons p l ih =>
    obtain ⟨k', v'⟩ := p
    unfold upd
    by_cases hk : eq k' k = true
    · have hk' : borrow k' = borrow k := (hB _ _).1 (hq _ _ ▸ hk)
      rw [if_pos hk]
      by_cases h : borrow k = b
      · simp [List.find?_cons, (hB _ _).2 (hk'.trans h), (hB _ _).2 h]
      · have : eqB (borrow k') b = false := by rw [← Bool.not_eq_true, hB, hk']; exact h
        simp [List.find?_cons, this, hk' ▸ this]
    · rw [if_neg hk]
      have hk' : borrow k' ≠ borrow k := fun e => hk (by rw [hq]; exact (hB _ _).2 e)
      by_cases h' : borrow k' = b
      · have : eqB (borrow k) b = false := by rw [← Bool.not_eq_true, hB]; exact fun e => hk' (h'.trans e.symm)
        simp [List.find?_cons, (hB _ _).2 h', this]
      · have : eqB (borrow k') b = false := by rw [← Bool.not_eq_true, hB]; exact h'
        simp only [List.find?_cons, this]
        exact ih

/-- **C86 (maps).** With keys that satisfy the contract, and whatever the hash function and its collisions: after any sequence of
insertions, what is found is what was stored last. -/
theorem C86_map {K B β : Type} (borrow : K → B) (eq : K → K → Bool) (cmp : K → K → Ordering) (feed : K → List UInt8)
    (eqB : B → B → Bool) (cmpB : B → B → Ordering) (feedB : B → List UInt8) (ok : BorrowOK borrow eq cmp feed eqB cmpB feedB)
    (hB : ∀ a b, eqB a b = true ↔ a = b) (H : List UInt8 → Nat) (ops : List (K × β)) (b : B) :
    (ops.foldl (HTable.insert H feed eq) .empty).get H feedB eqB borrow b = lastUnder eqB borrow ops b := by
  rw [← List.reverse_reverse ops, List.foldl_reverse]
  simp only [lastUnder, List.reverse_reverse]
  induction ops.reverse with
  | nil => rfl
  | cons p l ih =>
    rw [List.foldr_cons]
    generalize List.foldr _ _ l = t at ih ⊢
    by_cases h : borrow p.1 = b
    · have hi : H (feedB b) = H (feed p.1) := by rw [ok.hash, h]
      simp only [HTable.get, HTable.insert, if_pos hi, find_upd eq eqB borrow ok.eq hB, List.find?_cons, (hB _ _).2 h, if_true,
        Option.map_some]
    · have hf : eqB (borrow p.1) b = false := by rw [← Bool.not_eq_true, hB]; exact h
      rw [List.find?_cons, hf]
      refine Eq.trans ?_ ih
      simp only [HTable.get, HTable.insert]
      split
      · rw [find_upd eq eqB borrow ok.eq hB, hf]; rfl
      · rfl

/-- **C86 (lookup).** In a map whose keys are strings, each borrowed or owned, what was stored last under a text is found under this
text, and under this text only. -/
theorem C86_lookup {β : Type} (H : List UInt8 → Nat) (ops : List (StrRef V × β)) (s : String) :
    (ops.foldl (HTable.insert H StrRef.feed StrRef.eq) .empty).get H feedStr (· == ·) StrRef.str s =
      lastUnder (· == ·) StrRef.str ops s :=
  C86_map _ _ _ _ _ _ _ C86_key (fun _ _ => beq_iff_eq) H ops s

/-- **C86 (lookup is false of `MOw`).** What was stored under a borrowed value is not found under this value, unless the two hashes
collide. -/
theorem C86_lost_counterexample {T β : Type} (t : T) (v : β) (e : T → T → Bool) (h : T → List UInt8) (H : List UInt8 → Nat)
    (hH : H (h t) ≠ H (MOw.feed h (.borrowed t))) :
    ((HTable.empty : HTable (MOw T) β).insert H (MOw.feed h) (MOw.eq e) (.borrowed t, v)).get H h e MOw.get t = none := by
  simp only [HTable.get, HTable.insert, HTable.empty, if_neg hH, List.find?_nil, Option.map_none]

/-- **C86 is false of `MOw`.** An owned value and the same value borrowed are different keys: this type, that can be looked up as what it
borrows, breaks what maps rely on, whatever equality, order and hash the values have. -/
theorem C86_owned_counterexample {T : Type} (t : T) (e : T → T → Bool) (c : T → T → Ordering) (h : T → List UInt8) (he : e t t = true) :
    ¬ BorrowOK MOw.get (MOw.eq e) (MOw.cmp c) (MOw.feed h) e c h := by
  intro k
  have h1 := k.eq (.owned t) (.borrowed t)
  simp [MOw.eq, MOw.get, he] at h1

/-- **C86 (`MOw`, part).** Between values that are all owned, or all borrowed, equality and order are those of the values. -/
theorem C86_owned_partial {T : Type} (e : T → T → Bool) (c : T → T → Ordering) (a b : T) :
    MOw.eq e (.owned a) (.owned b) = e a b ∧ MOw.eq e (.borrowed a) (.borrowed b) = e a b ∧
    MOw.cmp c (.owned a) (.owned b) = c a b ∧ MOw.cmp c (.borrowed a) (.borrowed b) = c a b := ⟨rfl, rfl, rfl, rfl⟩

/-- The hypothesis of `C86_lost_counterexample` is met. -/
example : List.length (feedStr "a") ≠ List.length (MOw.feed feedStr (.borrowed "a")) := by
  simp only [MOw.feed, List.length_append, List.length_cons, List.length_nil]
  omega

/-- A validator that refuses something: names that start with a letter. -/
def letters : Val Unit := ⟨fun _ s => match s.toList with | c :: _ => c.isAlpha | [] => false, ()⟩

example : Made letters (StrRef.reborrow (StrRef.intoOwned ⟨(), .borrowed "ab"⟩)) "ab" :=
  .ref (.into (.borrowed (by decide +kernel)))
example : letters.validate letters.dflt "1a" = false := by decide +kernel
example : lastUnder (· == ·) StrRef.str [((⟨(), .borrowed "a"⟩ : StrRef Unit), 1), (⟨(), .owned "a"⟩, 2), (⟨(), .owned "b"⟩, 3)] "a" =
    some 2 := by decide +kernel

/-! ## C87 -/

/-- **C87 (arrays).** Collecting exactly `n` elements gives them if there are `n`, and says otherwise whether there are too many or not
enough. -/
theorem C87_exact {α : Type} (n : Nat) (l : List α) : ExactSpec n l (exact (collectArray n l)) := by
  unfold collectArray
  by_cases h : (l.take n).length = n
  · rw [if_pos h]
    have hn : n ≤ l.length := by simp only [List.length_take] at h; omega
    cases hd : l.drop n with
    | nil =>
      have : l.length - n = 0 := by rw [← List.length_drop, hd]; rfl
      exact ⟨List.take_of_length_le (by omega), by omega⟩
    | cons x r =>
      have : l.length - n = r.length + 1 := by rw [← List.length_drop, hd]; rfl
      show n < l.length
      omega
  · rw [if_neg h]
    simp only [List.length_take] at h
    show l.length < n
    omega

theorem takeRes_ok {E α : Type} (n : Nat) (l : List α) :
    takeRes n (l.map fun a => (.ok a : Except E α)) = (.ok (l.take n), (l.drop n).map .ok) := by
  induction n generalizing l with
  | zero => rfl
  | succ n ih =>
    cases l with
    | nil => rfl
    | cons a l => simp [takeRes, ih]

theorem oks_map {E α : Type} (l : List α) : oks (l.map fun a => (.ok a : Except E α)) = l := by
  induction l with
  | nil => rfl
  | cons a l ih => simpa [oks, Except.toOption] using ih

/-- **C87 (results without errors).** On results that are all values: as on the values. -/
theorem C87_results_partial {E α : Type} (n : Nat) (l : List α) :
    exact (collectRes n (l.map fun a => (.ok a : Except E α))) = (exact (collectArray n l)).map .ok := by
  simp only [collectRes, takeRes_ok, collectArray, oks_map]
  split
  · cases l.drop n <;> rfl
  · rfl

/-- What is consumed. -/
theorem takeRes_spec {E α : Type} (n : Nat) (l : List (Except E α)) :
    (∃ (a : List α) (r : List (Except E α)), takeRes n l = (.ok a, r) ∧ l = a.map .ok ++ r ∧ (a.length = n ∨ a.length < n ∧ r = [])) ∨
    ∃ (a : List α) (e : E) (r : List (Except E α)), takeRes n l = (.error e, r) ∧ l = a.map .ok ++ .error e :: r ∧ a.length < n := by
  induction n generalizing l with
  | zero => exact .inl ⟨[], l, rfl, rfl, .inl rfl⟩
  | succ n ih =>
    match l with
    | [] => exact .inl ⟨[], [], rfl, rfl, .inr ⟨by simp, rfl⟩⟩
    | .error e :: l => exact .inr ⟨[], e, l, rfl, rfl, by simp⟩
    | .ok x :: l =>
      rcases ih l with ⟨a, r, h1, h2, h3⟩ | ⟨a, e, r, h1, h2, h3⟩
      · refine .inl ⟨x :: a, r, by simp only [takeRes, h1], by rw [h2]; rfl, ?_⟩
        rcases h3 with h3 | ⟨h3, h4⟩
        · exact .inl (by simp [h3])
        · exact .inr ⟨by simpa using h3, h4⟩
      · exact .inr ⟨x :: a, e, r, by simp only [takeRes, h1], by rw [h2]; rfl, by simp only [List.length_cons]; omega⟩

theorem oks_nil {E α : Type} {l : List (Except E α)} : oks l = [] ↔ ∀ x ∈ l, ∃ e, x = .error e := by
  simp only [oks, List.filterMap_eq_nil_iff]
  constructor
  · intro h x hx
    have := h x hx
    cases x with
    | ok a => simp [Except.toOption] at this
    | error e => exact ⟨e, rfl⟩
  · intro h x hx
    obtain ⟨e, rfl⟩ := h x hx
    rfl

/-- **C87 (results, what the code does).** `Ok(Ok(a))` is returned exactly if the iterator starts with the `n` values of `a` and only
errors follow; `Ok(Err(e))` exactly if `e` comes first, before `n` values, and no value follows. -/
theorem C87_results_iff {E α : Type} (n : Nat) (l : List (Except E α)) :
    (∀ a, exact (collectRes n l) = .ok (.ok a) ↔ a.length = n ∧ ∃ r, l = a.map .ok ++ r ∧ ∀ x ∈ r, ∃ e, x = .error e) ∧
    (∀ e, exact (collectRes n l) = .ok (.error e) ↔
      ∃ (a : List α) (r : List (Except E α)), l = a.map .ok ++ .error e :: r ∧ a.length < n ∧ ∀ x ∈ r, ∃ e, x = .error e) := by
  have split_eq : ∀ {a b : List α} {r s : List (Except E α)}, a.map Except.ok ++ r = b.map Except.ok ++ s → a.length = b.length → a = b ∧ r = s := by
    intro a b r s h hl
    obtain ⟨h1, h2⟩ := List.append_inj h (by simpa using hl)
    refine ⟨?_, h2⟩
    have h3 := congrArg oks h1
    rwa [oks_map, oks_map] at h3
  have split_err : ∀ {a b : List α} {e : E} {r s : List (Except E α)}, a.map Except.ok ++ Except.error e :: r = b.map Except.ok ++ s →
      a.length < b.length → False := by
    intro a b e r s h hl
    have := congrArg (fun l => l[a.length]?) h
    simp only [List.getElem?_append_right (show (a.map (Except.ok (ε := E))).length ≤ a.length by simp), List.length_map, Nat.sub_self,
      List.getElem?_cons_zero, List.getElem?_append_left (show a.length < (b.map (Except.ok (ε := E))).length by simpa using hl),
      List.getElem?_map, List.getElem?_eq_getElem hl, Option.map_some, Option.some.injEq, reduceCtorEq] at this
  rcases takeRes_spec n l with ⟨a, r, h1, h2, h3⟩ | ⟨a, e, r, h1, h2, h3⟩
  · simp only [collectRes, h1]
    constructor
    · intro b
      by_cases hn : a.length = n
      · rw [if_pos hn]
        constructor
        · intro h
          cases ho : oks r with
          | nil =>
            rw [ho] at h
            cases h
            exact ⟨hn, r, h2, oks_nil.1 ho⟩
          | cons x xs => rw [ho] at h; cases h
        · rintro ⟨hb, s, h4, h5⟩
          obtain ⟨rfl, rfl⟩ := split_eq (h2.symm.trans h4) (hn.trans hb.symm)
          rw [oks_nil.2 h5]; rfl
      · rw [if_neg hn]
        constructor
        · intro h; cases h
        · rintro ⟨hb, s, h4, h5⟩
          obtain ⟨h6, rfl⟩ := h3.resolve_left hn
          have := congrArg List.length (h2.symm.trans h4)
          simp at this
          omega
    · intro e
      constructor
      · intro h
        split at h
        · cases ho : oks r <;> rw [ho] at h <;> cases h
        · cases h
      · rintro ⟨b, s, h4, h5, h6⟩
        rcases h3 with h3 | ⟨h3, rfl⟩
        · exact (split_err (h4.symm.trans h2) (by omega)).elim
        · have := congrArg (fun l => (Except.error e : Except E α) ∈ l) (h4.symm.trans h2)
          simp at this
  · simp only [collectRes, h1]
    constructor
    · intro b
      constructor
      · intro h
        cases ho : oks r <;> rw [ho] at h <;> cases h
      · rintro ⟨hb, s, h4, h5⟩
        exact (split_err (h2.symm.trans h4) (by omega)).elim
    · intro e'
      constructor
      · intro h
        cases ho : oks r with
        | nil =>
          rw [ho] at h
          cases h
          exact ⟨a, r, h2, h3, oks_nil.1 ho⟩
        | cons x xs => rw [ho] at h; cases h
      · rintro ⟨b, s, h4, h5, h6⟩
        have hl : a.length = b.length := by
          rcases Nat.lt_trichotomy a.length b.length with h | h | h
          · exact (split_err (h2.symm.trans h4) h).elim
          · exact h
          · exact (split_err (h4.symm.trans h2) h).elim
        obtain ⟨rfl, h7⟩ := split_eq (h2.symm.trans h4) hl
        cases h7
        rw [oks_nil.2 h6]; rfl

/-- **C87 is false on results.** Two elements of which the first is an error are said to be too many. -/
theorem C87_too_many_counterexample : ¬ ∀ (n : Nat) (l : List (Except String Nat)), ExactResSpec n l (exact (collectRes n l)) := fun h => by
  have := h 2 [.error "e", .ok 1]
  have h2 : exact (collectRes 2 [(.error "e" : Except String Nat), .ok 1]) = .error .tooMany := rfl
  rw [h2] at this
  exact absurd (show 2 < 2 from this) (by decide)

/-- **C87 is false on results.** An error after the last element is forgotten. -/
theorem C87_forgotten_counterexample : ¬ ∀ (n : Nat) (l : List (Except String Nat)), ExactResSpec n l (exact (collectRes n l)) := fun h => by
  have := h 1 [.ok 1, .error "e"]
  have h2 : exact (collectRes 1 [(.ok 1 : Except String Nat), .error "e"]) = .ok (.ok [1]) := rfl
  rw [h2] at this
  exact absurd this.2 (by decide)

/-- **C87 (options).** On options the same as on results with one error. -/
theorem C87_options {α : Type} (n : Nat) (l : List (Option α)) :
    exact (collectOpt n l) =
      (exact (collectRes n (l.map fun | some a => .ok a | none => (.error () : Except Unit α)))).map Except.toOption := by
  unfold collectOpt collectRes
  split <;> rename_i h <;> rw [h]
  · simp only
    cases oks _ <;> rfl
  · simp only
    split
    · cases oks _ <;> rfl
    · rfl

example : exact (collectArray 2 [1, 2]) = .ok [1, 2] ∧ exact (collectArray 2 [1]) = .error .notEnough ∧
    exact (collectArray 2 [1, 2, 3]) = .error .tooMany := ⟨rfl, rfl, rfl⟩
example : exact (collectRes 2 [(.ok 1 : Except String Nat), .ok 2]) = .ok (.ok [1, 2]) ∧
    exact (collectRes 2 [(.ok 1 : Except String Nat), .error "e"]) = .ok (.error "e") := ⟨rfl, rfl⟩

end Key
end CV
