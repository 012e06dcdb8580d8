/-
C37: two different Squirrel symbols are never given the same CryptoVampire name, except through the fixed
table of built-in names and except for a function and a macro with the same path.
-/
import Verif.Sanitize

set_option linter.unusedSimpArgs false

namespace CV
namespace Sq

/-! ### base64 is injective -/

theorem sym_inj : ∀ m, m < 64 → ∀ n, n < 64 → sym m = sym n → m = n := by decide +kernel

theorem b64_inj : ∀ l m : List Nat, (∀ x ∈ l, x < 256) → (∀ x ∈ m, x < 256) → b64 l = b64 m → l = m := by
  intro l
  induction l using b64.induct with
  | case1 =>
    intro m _ _ h
    match m with
    | [] => rfl
    | [_] => simp [b64] at h
    | [_, _] => simp [b64] at h
    | _ :: _ :: _ :: _ => simp [b64] at h
  | case2 a =>
    intro m hl hm h
    match m with
    | [] => simp [b64] at h
    | [b] =>
      simp only [b64, List.cons.injEq, and_true] at h
      have ha := hl a (by simp)
      have hb := hm b (by simp)
      have h1 := sym_inj _ (by omega) _ (by omega) h.1
      have h2 := sym_inj _ (by omega) _ (by omega) h.2
      congr 1
      omega
    | [_, _] => simp [b64] at h
    | _ :: _ :: _ :: _ => simp [b64] at h
  | case3 a b =>
    intro m hl hm h
    match m with
    | [] => simp [b64] at h
    | [_] => simp [b64] at h
    | [a', b'] =>
      simp only [b64, List.cons.injEq, and_true] at h
      have ha := hl a (by simp)
      have hb := hl b (by simp)
      have ha' := hm a' (by simp)
      have hb' := hm b' (by simp)
      have h1 := sym_inj _ (by omega) _ (by omega) h.1
      have h2 := sym_inj _ (by omega) _ (by omega) h.2.1
      have h3 := sym_inj _ (by omega) _ (by omega) h.2.2
      have e1 : a = a' := by omega
      have e2 : b = b' := by omega
      rw [e1, e2]
    | _ :: _ :: _ :: _ => simp [b64] at h
  | case4 a b c r ih =>
    intro m hl hm h
    match m with
    | [] => simp [b64] at h
    | [_] => simp [b64] at h
    | [_, _] => simp [b64] at h
    | a' :: b' :: c' :: r' =>
      simp only [b64, List.cons.injEq] at h
      have ha := hl a (by simp)
      have hb := hl b (by simp)
      have hc := hl c (by simp)
      have ha' := hm a' (by simp)
      have hb' := hm b' (by simp)
      have hc' := hm c' (by simp)
      have h1 := sym_inj _ (by omega) _ (by omega) h.1
      have h2 := sym_inj _ (by omega) _ (by omega) h.2.1
      have h3 := sym_inj _ (by omega) _ (by omega) h.2.2.1
      have h4 := sym_inj _ (by omega) _ (by omega) h.2.2.2.1
      have hr := ih r' (fun x hx => hl x (by simp [hx])) (fun x hx => hm x (by simp [hx])) h.2.2.2.2
      have e1 : a = a' := by omega
      have e2 : b = b' := by omega
      have e3 : c = c' := by omega
      rw [e1, e2, e3, hr]

theorem utf8_lt (s : String) : ∀ x ∈ utf8 s, x < 256 := by
  intro x hx
  simp only [utf8, List.mem_map] at hx
  obtain ⟨b, _, rfl⟩ := hx
  exact b.toNat_lt

theorem utf8_inj {s t : String} (h : utf8 s = utf8 t) : s = t := by
  simp only [utf8] at h
  have h' : s.toByteArray.data.toList = t.toByteArray.data.toList :=
    (List.map_inj_right (fun a b hab => UInt8.toNat_inj.1 hab)).1 h
  apply String.toByteArray_inj.1
  cases hs : s.toByteArray
  cases ht : t.toByteArray
  rw [hs, ht] at h'
  congr 1
  exact Array.toList_inj.1 h'

theorem encode_inj {alnum : Char → Bool} (hu : alnum '_' = false) {s t : String}
    (h : encodeIfNeeded alnum s = encodeIfNeeded alnum t) : s = t := by
  simp only [encodeIfNeeded] at h
  have key : ∀ u v : String, u.toList.all alnum = true →
      u = "_base64_" ++ String.ofList (b64 (utf8 v)) → False := by
    intro u v hall he
    have : '_' ∈ u.toList := by rw [he]; simp
    have := List.all_eq_true.1 hall _ this
    simp [hu] at this
  by_cases hs : s.toList.all alnum = true <;> by_cases ht : t.toList.all alnum = true
  · rw [if_pos hs, if_pos ht] at h; exact h
  · rw [if_pos hs, if_neg ht] at h; exact (key _ _ hs h).elim
  · rw [if_neg hs, if_pos ht] at h; exact (key _ _ ht h.symm).elim
  · rw [if_neg hs, if_neg ht] at h
    have h1 := congrArg String.toList h
    simp only [String.toList_append, String.toList_ofList, List.append_cancel_left_eq] at h1
    exact utf8_inj (b64_inj _ _ (utf8_lt s) (utf8_lt t) h1)

/-! ### the kind prefixes -/

theorem pref_cancel {k₁ k₂ : Kind} {a b : String} (h : k₁.pref ++ a = k₂.pref ++ b) :
    k₁.pref = k₂.pref ∧ a = b := by
  have h1 := congrArg String.toList h
  cases k₁ <;> cases k₂ <;> simp [Kind.pref] at h1 ⊢ <;> exact String.toList_inj.1 h1

theorem remapped_not_pref : ∀ p ∈ remapped, ∀ k : Kind,
    k.pref.toList.isPrefixOf p.2.toList = false := by
  intro p hp k
  revert p
  cases k <;> decide +kernel

theorem lookup_mem {α β : Type} [BEq α] [LawfulBEq α] {l : List (α × β)} {a : α} {b : β} (h : l.lookup a = some b) :
    (a, b) ∈ l := by
  induction l with
  | nil => simp at h
  | cons p l ih =>
    obtain ⟨x, y⟩ := p
    simp only [List.lookup_cons] at h
    split at h
    · rename_i he
      rw [beq_iff_eq] at he
      cases h; subst he; simp
    · exact List.mem_cons_of_mem _ (ih h)

theorem remap_ne {s r : String} (h : remap s = some r) (k : Kind) (x : String) : r ≠ k.pref ++ x := by
  intro he
  have h1 := remapped_not_pref _ (lookup_mem h) k
  simp only [he] at h1
  have h2 : k.pref.toList.isPrefixOf (k.pref ++ x).toList = true := by
    rw [List.isPrefixOf_iff_prefix, String.toList_append]
    exact List.prefix_append _ _
  rw [h2] at h1
  cases h1

/-- **C37**: if two symbols are given the same name then either both are keys of the fixed table and mapped
to the same built-in, or neither is and they are the same string with the same kind of prefix. `alnum` is any
notion of alphanumeric character that excludes the underscore. -/
theorem C37_sanitize {alnum : Char → Bool} (hu : alnum '_' = false) {k₁ k₂ : Kind} {s₁ s₂ : String}
    (h : sanitize alnum k₁ s₁ = sanitize alnum k₂ s₂) :
    (∃ r, remap s₁ = some r ∧ remap s₂ = some r) ∨
    (remap s₁ = none ∧ remap s₂ = none ∧ k₁.pref = k₂.pref ∧ s₁ = s₂) := by
  simp only [sanitize] at h
  cases h1 : remap s₁ <;> cases h2 : remap s₂ <;> simp only [h1, h2] at h
  · have := pref_cancel h
    exact Or.inr ⟨rfl, rfl, this.1, encode_inj hu this.2⟩
  · exact (remap_ne h2 _ _ h.symm).elim
  · exact (remap_ne h1 _ _ h).elim
  · exact Or.inl ⟨_, rfl, by rw [h]⟩

/-- Two kinds share a prefix only when equal or when they are function and macro. -/
theorem C37_prefix {k₁ k₂ : Kind} (h : k₁.pref = k₂.pref) :
    k₁ = k₂ ∨ (k₁ = .function ∧ k₂ = .mac) ∨ (k₁ = .mac ∧ k₂ = .function) := by
  revert h; cases k₁ <;> cases k₂ <;> decide +kernel

/-- A name that is not a built-in is never given the name of a built-in, and its name always starts with its
kind, so it cannot be a keyword. -/
theorem C37_no_builtin (alnum : Char → Bool) (k : Kind) {s : String} (h : remap s = none) :
    (∀ p ∈ remapped, sanitize alnum k s ≠ p.2) ∧ k.pref.toList <+: (sanitize alnum k s).toList := by
  have hs : sanitize alnum k s = k.pref ++ encodeIfNeeded alnum s := by simp only [sanitize, h]
  refine ⟨?_, ?_⟩
  · intro p hp he
    have h1 := remapped_not_pref p hp k
    rw [← he, hs, String.toList_append] at h1
    have h2 : k.pref.toList.isPrefixOf (k.pref.toList ++ (encodeIfNeeded alnum s).toList) = true := by
      rw [List.isPrefixOf_iff_prefix]; exact List.prefix_append _ _
    rw [h2] at h1; cases h1
  · rw [hs, String.toList_append]; exact List.prefix_append _ _

/-! ### paths -/

theorem split_at_hash {l₁ l₂ r₁ r₂ : List Char} (h1 : '#' ∉ l₁) (h2 : '#' ∉ l₂)
    (h : l₁ ++ '#' :: r₁ = l₂ ++ '#' :: r₂) : l₁ = l₂ ∧ r₁ = r₂ := by
  induction l₁ generalizing l₂ with
  | nil =>
    cases l₂ with
    | nil => simpa using h
    | cons c l₂ => simp at h; exact absurd (by rw [h.1]; simp) h2
  | cons c l₁ ih =>
    cases l₂ with
    | nil => simp at h; exact absurd (by rw [← h.1]; simp) h1
    | cons d l₂ =>
      simp at h h1 h2
      have := ih h1.2 h2.2 h.2
      exact ⟨by rw [h.1, this.1], this.2⟩

theorem no_hash {s : String} (h : validSymb s = true) : '#' ∉ s.toList := by
  simp only [validSymb, Bool.or_eq_true, beq_iff_eq, Bool.not_eq_true'] at h
  rcases h with rfl | h
  · decide +kernel
  · intro hm
    rw [← Bool.not_eq_true, List.any_eq_true] at h
    exact h ⟨'#', hm, by decide⟩

theorem join_inj : ∀ l m : List String, (∀ s ∈ l, '#' ∉ s.toList) → (∀ s ∈ m, '#' ∉ s.toList) →
    l ≠ [] → m ≠ [] → joinWith "$#$" l = joinWith "$#$" m → l = m := by
  intro l
  induction l with
  | nil => intro m _ _ h; exact absurd rfl h
  | cons x l ih =>
    intro m hl hm _ hne h
    cases m with
    | nil => exact absurd rfl hne
    | cons y m =>
      have hx := hl x (by simp)
      have hy := hm y (by simp)
      cases l with
      | nil =>
        cases m with
        | nil => simpa [joinWith] using h
        | cons z m =>
          simp only [joinWith] at h
          exact absurd (by rw [h]; simp) hx
      | cons x' l =>
        cases m with
        | nil =>
          simp only [joinWith] at h
          exact absurd (by rw [← h]; simp) hy
        | cons z m =>
          simp only [joinWith] at h
          have h1 := congrArg String.toList h
          simp only [String.toList_append] at h1
          have e : "$#$".toList = ['$', '#', '$'] := by decide +kernel
          rw [e] at h1
          have h2 : (x.toList ++ ['$']) ++ '#' :: ('$' :: (joinWith "$#$" (x' :: l)).toList)
              = (y.toList ++ ['$']) ++ '#' :: ('$' :: (joinWith "$#$" (z :: m)).toList) := by
            simpa using h1
          have h3 := split_at_hash (by simpa using hx) (by simpa using hy) h2
          have h4 : x.toList = y.toList := by simpa using h3.1
          have h5 : (joinWith "$#$" (x' :: l)).toList = (joinWith "$#$" (z :: m)).toList := by
            simpa using h3.2
          have h6 := ih (z :: m) (fun s hs => hl s (List.mem_cons_of_mem _ hs))
            (fun s hs => hm s (List.mem_cons_of_mem _ hs)) (by simp) (by simp) (String.toList_inj.1 h5)
          rw [String.toList_inj.1 h4, h6]

theorem toStr_eq_join (p : Path) : p.toStr = joinWith "$#$" (p.npath ++ [p.symb]) := by
  simp only [Path.toStr]
  cases h : p.npath <;> simp [joinWith]

/-- Flattening a deserialized path to a string loses nothing. -/
theorem C37_path {p q : Path} (hp : p.valid = true) (hq : q.valid = true) (h : p.toStr = q.toStr) : p = q := by
  rw [toStr_eq_join, toStr_eq_join] at h
  simp only [Path.valid, Bool.and_eq_true, List.all_eq_true] at hp hq
  have hh : ∀ r : Path, (∀ x ∈ r.npath, validSymb x = true) ∧ validSymb r.symb = true →
      ∀ s ∈ r.npath ++ [r.symb], '#' ∉ s.toList := by
    intro r hr s hs
    rw [List.mem_append, List.mem_singleton] at hs
    rcases hs with hs | rfl
    · exact no_hash (hr.1 s hs)
    · exact no_hash hr.2
  have := join_inj _ _ (hh p hp) (hh q hq) (by simp) (by simp) h
  have h1 : p.npath = q.npath ∧ p.symb = q.symb := by
    have := List.append_inj' this rfl
    exact ⟨this.1, by simpa using this.2⟩
  cases p; cases q; simpa using h1

/-- **C37** for paths: two symbols of the dump that get the same name, and whose flattened path is not in the
fixed table, are the same path, with the same kind up to function/macro. -/
theorem C37_path_sanitize {alnum : Char → Bool} (hu : alnum '_' = false) {k₁ k₂ : Kind} {p q : Path}
    (hp : p.valid = true) (hq : q.valid = true) (hr : remap p.toStr = none)
    (h : sanitize alnum k₁ p.toStr = sanitize alnum k₂ q.toStr) : p = q ∧ k₁.pref = k₂.pref := by
  rcases C37_sanitize hu h with ⟨r, h1, _⟩ | ⟨_, _, h1, h2⟩
  · rw [hr] at h1; cases h1
  · exact ⟨C37_path hp hq h2, h1⟩

/-- Any notion of alphanumeric that does exclude the underscore (here: ASCII letters and digits). -/
example : Char.isAlphanum '_' = false := by decide
example : sanitize Char.isAlphanum .variable "x" = "var_x" := by decide +kernel
example : sanitize Char.isAlphanum .function "a'" = "fun__base64_YSc" := by decide +kernel
example : Path.valid ⟨["Top", "M"], "f"⟩ = true ∧ Path.toStr ⟨["Top", "M"], "f"⟩ = "Top$#$M$#$f" := by
  decide +kernel
example : remap "M$#$f" = none := by decide +kernel

/-- The sanitizer is not injective across kinds (the unrestricted property is false of the code): the table
of built-in names is consulted whatever the kind, so a variable and a function of the table's names
coincide, and a macro and a function with the same path coincide. -/
theorem C37_counterexample :
    sanitize Char.isAlphanum .variable "input" = sanitize Char.isAlphanum .mac "input" ∧
    sanitize Char.isAlphanum .function "empty" = sanitize Char.isAlphanum .variable "ø" ∧
    sanitize Char.isAlphanum .function "f" = sanitize Char.isAlphanum .mac "f" := by decide +kernel

end Sq
end CV
