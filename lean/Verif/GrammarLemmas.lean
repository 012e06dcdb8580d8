import Verif.Grammar
import Mathlib.Data.List.Forall2
/-
How the parsing expressions of the model of pest compose (see Grammar.lean).
-/
set_option linter.unusedSimpArgs false
set_option linter.unusedVariables false
set_option linter.unusedSectionVars false
namespace CV
namespace Txt2
open Prs (Out)

theorem run_mono {gr : Rule → G} : ∀ {n : Nat} {e : G} {t : Tx} {r}, run gr n e t = some r → run gr (n + 1) e t = some r := by
  intro n
  induction n with
  | zero => intro e t r h; simp [run] at h
  | succ n ih =>
    intro e t r h
    cases e with
    | lit s => simpa [run] using h
    | chr p => cases t <;> simpa [run] using h
    | seq a b =>
      rw [run] at h ⊢
      cases ha : run gr n a t with
      | none => rw [ha] at h; cases h
      | some x =>
        rw [ih ha]
        rw [ha] at h
        cases x with
        | none => exact h
        | some y =>
          obtain ⟨p, t'⟩ := y
          simp only at h ⊢
          cases hb : run gr n b t' with
          | none => rw [hb] at h; cases h
          | some z => rw [ih hb]; rw [hb] at h; exact h
    | alt a b =>
      rw [run] at h ⊢
      cases ha : run gr n a t with
      | none => rw [ha] at h; cases h
      | some x =>
        rw [ih ha]
        rw [ha] at h
        cases x with
        | none => exact ih h
        | some y => exact h
    | star a =>
      rw [run] at h ⊢
      cases ha : run gr n a t with
      | none => rw [ha] at h; cases h
      | some x =>
        rw [ih ha]
        rw [ha] at h
        cases x with
        | none => exact h
        | some y =>
          obtain ⟨p, t'⟩ := y
          simp only at h ⊢
          cases hb : run gr n (.star a) t' with
          | none => rw [hb] at h; cases h
          | some z => rw [ih hb]; rw [hb] at h; exact h
    | opt a =>
      rw [run] at h ⊢
      cases ha : run gr n a t with
      | none => rw [ha] at h; cases h
      | some x => rw [ih ha]; rw [ha] at h; exact h
    | neg a =>
      rw [run] at h ⊢
      cases ha : run gr n a t with
      | none => rw [ha] at h; cases h
      | some x => rw [ih ha]; rw [ha] at h; exact h
    | call a =>
      rw [run] at h ⊢
      cases ha : run gr n (gr a) t with
      | none => rw [ha] at h; cases h
      | some x => rw [ih ha]; rw [ha] at h; exact h

theorem run_le {gr : Rule → G} {n m : Nat} {e : G} {t : Tx} {r} (h : run gr n e t = some r) (l : n ≤ m) :
    run gr m e t = some r := by
  induction l with
  | refl => exact h
  | step _ ih => exact run_mono ih

section
variable {gr : Rule → G}

/-- The expression ends with the result `r`. -/
def Ends (gr : Rule → G) (e : G) (t : Tx) (r : Option (List Pair × Tx)) : Prop := ∃ n, run gr n e t = some r

/-- The result is unique. -/
theorem Ends.unique {e : G} {t : Tx} {r r'} (h : Ends gr e t r) (h' : Ends gr e t r') : r = r' := by
  obtain ⟨n, h⟩ := h
  obtain ⟨m, h'⟩ := h'
  have a := run_le h (Nat.le_max_left n m)
  have b := run_le h' (Nat.le_max_right n m)
  rw [a] at b
  exact Option.some.inj b

/-- The expression succeeds. -/
abbrev Ok (gr : Rule → G) (e : G) (t : Tx) (p : List Pair) (t' : Tx) : Prop := Ends gr e t (some (p, t'))
/-- The expression fails. -/
abbrev No (gr : Rule → G) (e : G) (t : Tx) : Prop := Ends gr e t none

theorem two {a b : G} {t t' : Tx} {r r'} (h : Ends gr a t r) (h' : Ends gr b t' r') :
    ∃ n, run gr n a t = some r ∧ run gr n b t' = some r' := by
  obtain ⟨n, h⟩ := h
  obtain ⟨m, h'⟩ := h'
  exact ⟨max n m, run_le h (Nat.le_max_left n m), run_le h' (Nat.le_max_right n m)⟩

theorem ok_lit {s t : Tx} : Ok gr (.lit s) (s ++ t) [] t :=
  ⟨1, by simp [run, List.isPrefixOf_iff_prefix]⟩

theorem no_lit {s t : Tx} (h : s.isPrefixOf t = false) : No gr (.lit s) t := ⟨1, by simp [run, h]⟩

theorem ok_chr {p : Char → Bool} {c : Char} {t : Tx} (h : p c = true) : Ok gr (.chr p) (c :: t) [] t := ⟨1, by simp [run, h]⟩
theorem no_chr {p : Char → Bool} {c : Char} {t : Tx} (h : p c = false) : No gr (.chr p) (c :: t) := ⟨1, by simp [run, h]⟩
theorem no_chr_nil {p : Char → Bool} : No gr (.chr p) [] := ⟨1, by simp [run]⟩

theorem ok_seq {a b : G} {t t' t'' : Tx} {p q} (h : Ok gr a t p t') (h' : Ok gr b t' q t'') :
    Ok gr (.seq a b) t (p ++ q) t'' := by
  obtain ⟨n, x, y⟩ := two h h'
  exact ⟨n + 1, by rw [run, x]; simp only; rw [y]⟩
theorem no_seq1 {a b : G} {t : Tx} (h : No gr a t) : No gr (.seq a b) t := by
  obtain ⟨n, h⟩ := h
  exact ⟨n + 1, by rw [run, h]⟩
theorem no_seq2 {a b : G} {t t' : Tx} {p} (h : Ok gr a t p t') (h' : No gr b t') : No gr (.seq a b) t := by
  obtain ⟨n, x, y⟩ := two h h'
  exact ⟨n + 1, by rw [run, x]; simp only; rw [y]⟩
theorem ok_alt1 {a b : G} {t t' : Tx} {p} (h : Ok gr a t p t') : Ok gr (.alt a b) t p t' := by
  obtain ⟨n, h⟩ := h
  exact ⟨n + 1, by rw [run, h]⟩
theorem alt2 {a b : G} {t : Tx} {r} (h : No gr a t) (h' : Ends gr b t r) : Ends gr (.alt a b) t r := by
  obtain ⟨n, x, y⟩ := two h h'
  exact ⟨n + 1, by rw [run, x]; simp only; rw [y]⟩
theorem ok_star0 {a : G} {t : Tx} (h : No gr a t) : Ok gr (.star a) t [] t := by
  obtain ⟨n, h⟩ := h
  exact ⟨n + 1, by rw [run, h]⟩
theorem ok_star1 {a : G} {t t' t'' : Tx} {p q} (h : Ok gr a t p t') (h' : Ok gr (.star a) t' q t'') :
    Ok gr (.star a) t (p ++ q) t'' := by
  obtain ⟨n, x, y⟩ := two h h'
  exact ⟨n + 1, by rw [run, x]; simp only; rw [y]⟩
theorem ok_opt0 {a : G} {t : Tx} (h : No gr a t) : Ok gr (.opt a) t [] t := by
  obtain ⟨n, h⟩ := h
  exact ⟨n + 1, by rw [run, h]⟩
theorem ok_opt1 {a : G} {t t' : Tx} {p} (h : Ok gr a t p t') : Ok gr (.opt a) t p t' := by
  obtain ⟨n, h⟩ := h
  exact ⟨n + 1, by rw [run, h]⟩
theorem ok_neg {a : G} {t : Tx} (h : No gr a t) : Ok gr (.neg a) t [] t := by
  obtain ⟨n, h⟩ := h
  exact ⟨n + 1, by rw [run, h]⟩
theorem no_neg {a : G} {t t' : Tx} {p} (h : Ok gr a t p t') : No gr (.neg a) t := by
  obtain ⟨n, h⟩ := h
  exact ⟨n + 1, by rw [run, h]⟩
theorem ok_call {r : Rule} {s t' : Tx} {p} (h : Ok gr (gr r) (s ++ t') p t') :
    Ok gr (.call r) (s ++ t') [.node r s p] t' := by
  obtain ⟨n, h⟩ := h
  refine ⟨n + 1, ?_⟩
  rw [run, h]
  simp
/-- Any success of a rule. -/
theorem ok_call' {r : Rule} {t t' : Tx} {p} (h : Ok gr (gr r) t p t') :
    Ok gr (.call r) t [.node r (t.take (t.length - t'.length)) p] t' := by
  obtain ⟨n, h⟩ := h
  exact ⟨n + 1, by rw [run, h]⟩
theorem no_call {r : Rule} {t : Tx} (h : No gr (gr r) t) : No gr (.call r) t := by
  obtain ⟨n, h⟩ := h
  exact ⟨n + 1, by rw [run, h]⟩

/-! ### Blanks and comments -/

/-- The first character, or something that starts nothing. -/
def hd (s : Tx) : Char := s.headD '.'

/-- No closing of a comment before the end of `b ++ cls`. -/
def Inside (cls : Tx) : Tx → Prop
  | [] => True
  | c :: b => cls.isPrefixOf (c :: b ++ cls) = false ∧ Inside cls b

/-- SPECIFICATION. The blanks. -/
def Sp (c : Char) : Bool := c == ' ' || c == '\t' || c == '\n' || c == '\r'

/-- SPECIFICATION. Blanks and comments, which do not matter: `/* … */` and `(* … *)`, not nested. -/
inductive Blank : Tx → Prop
  | nil : Blank []
  | ws (c : Char) (w : Tx) : Sp c = true → Blank w → Blank (c :: w)
  | c (b w : Tx) : Inside c!"*/" b → Blank w → Blank (c!"/*" ++ (b ++ (c!"*/" ++ w)))
  | ml (b w : Tx) : Inside c!"*)" b → Blank w → Blank (c!"(*" ++ (b ++ (c!"*)" ++ w)))

/-- The text starts neither with a blank nor with a comment. -/
def Solid (s : Tx) : Prop := isWs (hd s) = false ∧ hd s ≠ '/' ∧ hd s ≠ '*' ∧ (hd s = '(' → hd s.tail ≠ '*')

theorem no_lit_hd {a : Char} {s t : Tx} (h : hd t ≠ a) : No gr (.lit (a :: s)) t := by
  apply no_lit
  cases t with
  | nil => rfl
  | cons c t =>
    simp only [List.isPrefixOf]
    have : (a == c) = false := by simpa [hd] using (Ne.symm h)
    simp [this]

theorem body_ok {cls : Tx} (n : cls ≠ []) : ∀ (b t : Tx), Inside cls b →
    Ok gr (.star (.seq (.neg (.lit cls)) (.chr fun _ => true))) (b ++ (cls ++ t)) [] (cls ++ t) := by
  intro b
  induction b with
  | nil =>
    intro t _
    exact ok_star0 (no_seq1 (no_neg ok_lit))
  | cons c b ih =>
    intro t h
    have hn : cls.isPrefixOf (c :: (b ++ (cls ++ t))) = false := by
      have h1 := h.1
      rw [Bool.eq_false_iff] at h1 ⊢
      intro hp
      apply h1
      rw [List.isPrefixOf_iff_prefix] at hp ⊢
      have : c :: (b ++ (cls ++ t)) = (c :: b ++ cls) ++ t := by simp
      rw [this] at hp
      exact List.prefix_of_prefix_length_le hp (List.prefix_append _ _) (by simp; omega)
    have := ok_star1 (gr := gr) (ok_seq (ok_neg (no_lit hn)) (ok_chr (p := fun _ => true) rfl)) (ih t h.2)
    simpa using this

theorem comment_ok {opn cls : Tx} (n : cls ≠ []) {b t : Tx} (h : Inside cls b) :
    Ok gr (comment opn cls) (opn ++ (b ++ (cls ++ t))) [] t :=
  ok_seq (p := []) (q := []) ok_lit (ok_seq (p := []) (q := []) (body_ok n b t h) ok_lit)

theorem no_ws {s : Tx} (h : isWs (hd s) = false) : No gr (.chr isWs) s := by
  cases s with
  | nil => exact no_chr_nil
  | cons c s => exact no_chr h

theorem no_comment {s : Tx} (h : Solid s) : No gr commentG s := by
  refine alt2 (no_seq1 (no_lit_hd h.2.1)) (no_seq1 ?_)
  cases s with
  | nil => exact no_lit rfl
  | cons c s =>
    by_cases hc : c = '('
    · subst hc
      have h3 : hd s ≠ '*' := h.2.2.2 rfl
      apply no_lit
      cases s with
      | nil => rfl
      | cons d s =>
        have : ('*' == d) = false := by simpa [hd] using (Ne.symm h3)
        simp [List.isPrefixOf, this]
    · exact no_lit_hd (by simpa [hd] using hc)

/-- The two loops of the implicit whitespace. -/
theorem skip_aux {s : Tx} (h : Solid s) : ∀ {w : Tx}, Blank w →
    (∃ u, Ok gr (.star (.chr isWs)) (w ++ s) [] u ∧ Ok gr (.star (.seq commentG (.star (.chr isWs)))) u [] s) := by
  intro w b
  induction b with
  | nil => exact ⟨s, ok_star0 (no_ws h.1), ok_star0 (no_seq1 (no_comment h))⟩
  | ws c w hc _ ih =>
    obtain ⟨u, x, y⟩ := ih
    exact ⟨u, ok_star1 (p := []) (q := []) (ok_chr hc) x, y⟩
  | c b w hb _ ih =>
    obtain ⟨u, x, y⟩ := ih
    refine ⟨c!"/*" ++ (b ++ (c!"*/" ++ w)) ++ s, ok_star0 (no_chr rfl), ?_⟩
    refine ok_star1 (p := []) (q := []) (ok_seq (p := []) (q := []) (ok_alt1 ?_) x) y
    simpa using comment_ok (gr := gr) (opn := c!"/*") (cls := c!"*/") (by simp) (b := b) (t := w ++ s) hb
  | ml b w hb _ ih =>
    obtain ⟨u, x, y⟩ := ih
    refine ⟨c!"(*" ++ (b ++ (c!"*)" ++ w)) ++ s, ok_star0 (no_chr rfl), ?_⟩
    refine ok_star1 (p := []) (q := []) (ok_seq (p := []) (q := []) (alt2 (no_seq1 (no_lit rfl)) ?_) x) y
    simpa using comment_ok (gr := gr) (opn := c!"(*") (cls := c!"*)") (by simp) (b := b) (t := w ++ s) hb

theorem skip_ok {w s : Tx} (b : Blank w) (h : Solid s) : Ok gr skipG (w ++ s) [] s := by
  obtain ⟨u, x, y⟩ := skip_aux (gr := gr) h b
  exact ok_seq (p := []) (q := []) x y

theorem skip_no {s : Tx} (h : Solid s) : Ok gr skipG s [] s := skip_ok (gr := gr) Blank.nil h

theorem ok_then {a b : G} {t w t' t'' : Tx} {p q} (h : Ok gr a t p (w ++ t')) (hw : Blank w) (hs : Solid t')
    (h' : Ok gr b t' q t'') : Ok gr (a ~~ b) t (p ++ q) t'' :=
  ok_seq h (ok_seq (p := []) (skip_ok hw hs) h')

theorem no_then1 {a b : G} {t : Tx} (h : No gr a t) : No gr (a ~~ b) t := no_seq1 h

theorem no_then2 {a b : G} {t w t' : Tx} {p} (h : Ok gr a t p (w ++ t')) (hw : Blank w) (hs : Solid t')
    (h' : No gr b t') : No gr (a ~~ b) t := no_seq2 h (no_seq2 (skip_ok hw hs) h')

/-- The start of `a ~ b` with a fixed text. -/
theorem ok_lit_then {k : Tx} {b : G} {w t' t'' : Tx} {q} (hw : Blank w) (hs : Solid t') (h' : Ok gr b t' q t'') :
    Ok gr (.lit k ~~ b) (k ++ (w ++ t')) q t'' := by
  simpa using ok_then (gr := gr) (ok_lit (s := k) (t := w ++ t')) hw hs h'

theorem no_lit_then {k : Tx} {b : G} {w t' : Tx} (hw : Blank w) (hs : Solid t') (h' : No gr b t') :
    No gr (.lit k ~~ b) (k ++ (w ++ t')) := no_then2 (gr := gr) (ok_lit (s := k) (t := w ++ t')) hw hs h'

theorem Blank.append {w v : Tx} (h : Blank w) (h' : Blank v) : Blank (w ++ v) := by
  induction h with
  | nil => exact h'
  | ws c w hc _ ih => exact .ws c _ hc ih
  | c b w hb _ ih => simpa using Blank.c b _ hb ih
  | ml b w hb _ ih => simpa using Blank.ml b _ hb ih

/-! ### Lists in brackets -/

/-- SPECIFICATION. How the inside of brackets is written: the elements separated by commas, possibly one after the last. -/
inductive Items {α : Type} (W : α → Tx → Prop) : List α → Tx → Prop
  | nil : Items W [] []
  | one (a : α) (t w : Tx) : W a t → Blank w → Items W [a] (t ++ w)
  | cons (a : α) (l : List α) (t w w' s : Tx) : W a t → Blank w → Blank w' → Items W l s →
      Items W (a :: l) (t ++ (w ++ (',' :: (w' ++ s))))

/-- The elements of a list are read: they start with something, and what follows is a comma or the closing bracket. -/
structure Elem {α : Type} (gr : Rule → G) (e : G) (cl : Char) (W : α → Tx → Prop) (C : Pair → α → Prop) : Prop where
  solid : ∀ a t s, W a t → Solid (t ++ s)
  ok : ∀ a t w s c, W a t → Blank w → (c = ',' ∨ c = cl) →
    ∃ p v, Blank v ∧ Ok gr e (t ++ (w ++ c :: s)) [p] (v ++ c :: s) ∧ C p a
  no : ∀ s, No gr e (cl :: s)

theorem solid_cons {c : Char} {s : Tx} (h1 : isWs c = false) (h2 : c ≠ '/') (h3 : c ≠ '(') (h4 : c ≠ '*') : Solid (c :: s) :=
  ⟨h1, h2, h4, fun h => absurd h h3⟩

section
variable {α : Type} {e : G} {cl : Char} {W : α → Tx → Prop} {C : Pair → α → Prop}

theorem items_star (E : Elem gr e cl W C) (hcl : Solid [cl]) (hne : cl ≠ ',' ∧ cl ≠ '(') {l : List α} {txt : Tx}
    (I : Items W l txt) : ∀ (w s : Tx), Blank w → ∃ ps qs u u' v, Blank u ∧ Solid u' ∧ Blank v ∧
      Ok gr (.star (.seq skipG (e ~~ .lit c!","))) (w ++ (txt ++ cl :: s)) ps (u ++ u') ∧
      Ok gr (.opt e) u' qs (v ++ cl :: s) ∧ List.Forall₂ C (ps ++ qs) l := by
  have hs : ∀ s, Solid (cl :: s) := fun s => ⟨hcl.1, hcl.2.1, hcl.2.2.1, fun h => absurd h hne.2⟩
  have hcomma : ∀ s, Solid (',' :: s) := fun s => solid_cons rfl (by decide) (by decide) (by decide)
  induction I with
  | nil =>
    intro w s hw
    exact ⟨[], [], w, cl :: s, [], hw, hs s, .nil, ok_star0 (no_seq2 (skip_ok hw (hs s)) (no_then1 (E.no s))),
      ok_opt0 (E.no s), .nil⟩
  | one a t w1 ha hw1 =>
    intro w s hw
    obtain ⟨p, v, hv, hp, hc⟩ := E.ok a t w1 s cl ha hw1 (.inr rfl)
    have hst : Solid (t ++ (w1 ++ cl :: s)) := E.solid a t _ ha
    refine ⟨[], [p], w, t ++ (w1 ++ cl :: s), v, hw, hst, hv, ?_, ok_opt1 hp, .cons hc .nil⟩
    rw [List.append_assoc]
    refine ok_star0 (no_seq2 (skip_ok hw hst) (no_then2 hp hv (hs s) (no_lit_hd ?_)))
    simpa [hd] using hne.1
  | cons a l t w1 w2 r ha hw1 hw2 _ ih =>
    intro w s hw
    obtain ⟨p, v, hv, hp, hc⟩ := E.ok a t w1 (w2 ++ (r ++ cl :: s)) ',' ha hw1 (.inl rfl)
    obtain ⟨ps, qs, u, u', v', hu, hu', hv', h1, h2, h3⟩ := ih w2 s hw2
    have hst : Solid (t ++ (w1 ++ ',' :: (w2 ++ (r ++ cl :: s)))) := E.solid a t _ ha
    refine ⟨p :: ps, qs, u, u', v', hu, hu', hv', ?_, h2, .cons hc h3⟩
    have := ok_star1 (gr := gr) (ok_seq (p := []) (skip_ok (gr := gr) hw hst)
      (ok_then hp hv (hcomma _) (ok_lit (s := c!",") (t := w2 ++ (r ++ cl :: s))))) h1
    simpa using this

/-- The inside of the brackets is read up to the closing bracket. -/
theorem items_ok (E : Elem gr e cl W C) (hcl : Solid [cl]) (hne : cl ≠ ',' ∧ cl ≠ '(') {l : List α} {txt : Tx}
    (I : Items W l txt) (s : Tx) : ∃ ps v, Blank v ∧ Solid (txt ++ cl :: s) ∧
      Ok gr (many (e ~~ .lit c!",") ~~ .opt e) (txt ++ cl :: s) ps (v ++ cl :: s) ∧ List.Forall₂ C ps l := by
  have hs : ∀ s, Solid (cl :: s) := fun s => ⟨hcl.1, hcl.2.1, hcl.2.2.1, fun h => absurd h hne.2⟩
  have hcomma : ∀ s, Solid (',' :: s) := fun s => solid_cons rfl (by decide) (by decide) (by decide)
  cases I with
  | nil =>
    refine ⟨[], [], .nil, hs s, ?_, .nil⟩
    exact ok_then (w := []) (t' := cl :: s) (p := []) (q := []) (ok_opt0 (no_seq1 (no_then1 (E.no s)))) .nil (hs s)
      (ok_opt0 (E.no s))
  | one a t w1 ha hw1 =>
    obtain ⟨p, v, hv, hp, hc⟩ := E.ok a t w1 s cl ha hw1 (.inr rfl)
    have hst : Solid (t ++ (w1 ++ cl :: s)) := E.solid a t _ ha
    rw [List.append_assoc]
    refine ⟨[p], v, hv, hst, ?_, .cons hc .nil⟩
    refine ok_then (w := []) (p := []) (t' := t ++ (w1 ++ cl :: s)) (ok_opt0 (no_seq1 (no_then2 hp hv (hs s) (no_lit_hd ?_))))
      .nil hst (ok_opt1 hp)
    simpa [hd] using hne.1
  | cons a l t w1 w2 r ha hw1 hw2 I =>
    obtain ⟨p, v, hv, hp, hc⟩ := E.ok a t w1 (w2 ++ (r ++ cl :: s)) ',' ha hw1 (.inl rfl)
    obtain ⟨ps, qs, u, u', v', hu, hu', hv', h1, h2, h3⟩ := items_star E hcl hne I w2 s hw2
    have hst : Solid (t ++ (w1 ++ ',' :: (w2 ++ (r ++ cl :: s)))) := E.solid a t _ ha
    refine ⟨p :: ps ++ qs, v', hv', by simpa using hst, ?_, .cons hc h3⟩
    have := ok_then (gr := gr) (ok_opt1 (ok_seq (ok_then hp hv (hcomma _) (ok_lit (s := c!",") (t := w2 ++ (r ++ cl :: s)))) h1))
      hu hu' h2
    simpa [many] using this

/-- The whole list is read, up to and including the closing bracket. -/
theorem listOf_ok (E : Elem gr e cl W C) (hcl : Solid [cl]) (hne : cl ≠ ',' ∧ cl ≠ '(') {l : List α} {txt opn : Tx}
    (I : Items W l txt) {w : Tx} (hw : Blank w) (s : Tx) : ∃ ps,
      Ok gr (listOf opn e [cl]) (opn ++ (w ++ (txt ++ cl :: s))) ps s ∧ List.Forall₂ C ps l := by
  have hs : ∀ s, Solid (cl :: s) := fun s => ⟨hcl.1, hcl.2.1, hcl.2.2.1, fun h => absurd h hne.2⟩
  obtain ⟨ps, v, hv, hsol, h, hc⟩ := items_ok E hcl hne I s
  refine ⟨ps, ?_, hc⟩
  have := ok_lit_then (gr := gr) (k := opn) hw hsol (ok_then h hv (hs s) (ok_lit (s := [cl]) (t := s)))
  simpa [listOf] using this
end

end

end Txt2
end CV
