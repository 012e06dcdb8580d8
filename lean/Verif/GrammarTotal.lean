import Verif.GrammarStm
/-
Reading a file always ends: the grammar of Grammar.lean has no left recursion and no repetition of the empty text.
-/
set_option linter.unusedSimpArgs false
set_option linter.unusedVariables false
namespace CV
namespace Txt2
open Prs (Out)

/-- The rules that may succeed without consuming anything. -/
def nulR : Rule → Bool
  | .typed_arguments | .declare_function_args | .EOI => true
  | _ => false

/-- The expressions that may succeed without consuming anything. -/
def nul : G → Bool
  | .lit s => s.isEmpty
  | .chr _ => false
  | .seq a b => nul a && nul b
  | .alt a b => nul a || nul b
  | .star _ | .opt _ | .neg _ => true
  | .call r => nulR r

/-- A rank that decreases from a rule to the rules it tries before consuming anything. -/
def rk : Rule → Nat
  | .type_name | .macro_name | .function | .variable | .step_name | .operation | .quantifier_op | .ordering_operation
  | .declaration => 1
  | .variable_binding | .application | .macro_application | .quantifier | .content => 2
  | .commun_base | .assignement | .file => 3
  | .inner_term => 4
  | .term => 5
  | .order_guard | .assertion_inner => 6
  | _ => 0

/-- Before consuming anything, only rules of a rank below `k` are tried. -/
def front (k : Nat) : G → Bool
  | .lit _ | .chr _ => true
  | .seq a b => front k a && (!nul a || front k b)
  | .alt a b => front k a && front k b
  | .star a | .opt a | .neg a => front k a
  | .call r => decide (rk r < k)

/-- No repetition of what may consume nothing. -/
def sok : G → Bool
  | .lit _ | .chr _ | .call _ => true
  | .seq a b | .alt a b => sok a && sok b
  | .star a => !nul a && sok a
  | .opt a | .neg a => sok a

section
variable {U : Char → Bool}

theorem gram_nul (r : Rule) : nul (gram U r) = nulR r := by cases r <;> rfl
theorem gram_front (r : Rule) : front (rk r) (gram U r) = true := by cases r <;> rfl
theorem gram_sok (r : Rule) : sok (gram U r) = true := by cases r <;> rfl

/-- What remains is not longer, and shorter if something had to be consumed. -/
theorem run_short : ∀ (n : Nat) {e : G} {t t' : Tx} {p}, run (gram U) n e t = some (some (p, t')) →
    t'.length ≤ t.length ∧ (nul e = false → t'.length < t.length) := by
  intro n
  induction n with
  | zero => intro e t t' p h; simp [run] at h
  | succ n ih =>
    intro e t t' p h
    cases e with
    | lit s =>
      simp only [run] at h
      split at h
      · rename_i hs
        cases h
        have hl : s.length ≤ t.length := (List.isPrefixOf_iff_prefix.1 hs).length_le
        refine ⟨by simp, fun hn => ?_⟩
        have : 0 < s.length := by
          cases s with
          | nil => simp [nul] at hn
          | cons => simp
        simp only [List.length_drop]
        omega
      · cases h
    | chr q =>
      cases t with
      | nil => simp [run] at h
      | cons c t =>
        simp only [run] at h
        split at h
        · cases h
          simp
        · cases h
    | seq a b =>
      simp only [run] at h
      split at h
      · cases h
      · cases h
      · rename_i q u hq
        split at h
        · cases h
        · cases h
        · rename_i q' u' hq'
          cases h
          obtain ⟨a1, a2⟩ := ih hq
          obtain ⟨b1, b2⟩ := ih hq'
          refine ⟨by omega, fun hn => ?_⟩
          simp only [nul, Bool.and_eq_false_iff] at hn
          rcases hn with hn | hn
          · have := a2 hn; omega
          · have := b2 hn; omega
    | alt a b =>
      simp only [run] at h
      split at h
      · cases h
      · obtain ⟨b1, b2⟩ := ih h
        exact ⟨b1, fun hn => b2 (by simp only [nul, Bool.or_eq_false_iff] at hn; exact hn.2)⟩
      · rename_i hq
        cases h
        obtain ⟨a1, a2⟩ := ih hq
        exact ⟨a1, fun hn => a2 (by simp only [nul, Bool.or_eq_false_iff] at hn; exact hn.1)⟩
    | star a =>
      refine ⟨?_, fun hn => by simp [nul] at hn⟩
      simp only [run] at h
      split at h
      · cases h
      · cases h; exact Nat.le_refl _
      · rename_i q u hq
        split at h
        · cases h
        · cases h
        · rename_i q' u' hq'
          cases h
          have := (ih hq).1
          have := (ih hq').1
          omega
    | opt a =>
      refine ⟨?_, fun hn => by simp [nul] at hn⟩
      simp only [run] at h
      split at h
      · cases h
      · cases h; exact Nat.le_refl _
      · rename_i hq
        cases h
        exact (ih hq).1
    | neg a =>
      refine ⟨?_, fun hn => by simp [nul] at hn⟩
      simp only [run] at h
      split at h
      · cases h
      · cases h; exact Nat.le_refl _
      · cases h
    | call r =>
      simp only [run] at h
      split at h
      · cases h
      · cases h
      · rename_i hq
        cases h
        obtain ⟨a1, a2⟩ := ih hq
        exact ⟨a1, fun hn => a2 (by rw [gram_nul]; exact hn)⟩

/-- The expression comes to an end on the text. -/
def Term (U : Char → Bool) (e : G) (t : Tx) : Prop := ∃ r, Ends (gram U) e t r

theorem term_lit {s t : Tx} : Term U (.lit s) t := by
  cases h : s.isPrefixOf t with
  | true => exact ⟨_, 1, by simp only [run, h]; rfl⟩
  | false => exact ⟨_, no_lit h⟩

theorem term_chr {p : Char → Bool} {t : Tx} : Term U (.chr p) t := by
  cases t with
  | nil => exact ⟨_, no_chr_nil⟩
  | cons c t =>
    cases h : p c with
    | true => exact ⟨_, ok_chr h⟩
    | false => exact ⟨_, no_chr h⟩

theorem term_seq {a b : G} {t : Tx} (ha : Term U a t) (hb : ∀ p t', Ok (gram U) a t p t' → Term U b t') : Term U (.seq a b) t := by
  obtain ⟨r, hr⟩ := ha
  cases r with
  | none => exact ⟨_, no_seq1 hr⟩
  | some x =>
    obtain ⟨r', hr'⟩ := hb x.1 x.2 hr
    cases r' with
    | none => exact ⟨_, no_seq2 (p := x.1) (t' := x.2) hr hr'⟩
    | some y => exact ⟨_, ok_seq (p := x.1) (q := y.1) (t' := x.2) (t'' := y.2) hr hr'⟩

theorem term_alt {a b : G} {t : Tx} (ha : Term U a t) (hb : Term U b t) : Term U (.alt a b) t := by
  obtain ⟨r, hr⟩ := ha
  cases r with
  | none =>
    obtain ⟨r', hr'⟩ := hb
    exact ⟨_, alt2 hr hr'⟩
  | some x => exact ⟨_, ok_alt1 (p := x.1) (t' := x.2) hr⟩

theorem term_star {a : G} {t : Tx} (ha : Term U a t) (hb : ∀ p t', Ok (gram U) a t p t' → Term U (.star a) t') :
    Term U (.star a) t := by
  obtain ⟨r, hr⟩ := ha
  cases r with
  | none => exact ⟨_, ok_star0 hr⟩
  | some x =>
    obtain ⟨r', n, hn⟩ := hb x.1 x.2 hr
    obtain ⟨m, hm⟩ := hr
    refine ⟨match r' with | none => none | some y => some (x.1 ++ y.1, y.2), max n m + 1, ?_⟩
    rw [run, run_le hm (Nat.le_max_right n m)]
    simp only
    rw [run_le hn (Nat.le_max_left n m)]
    cases r' with
    | none => rfl
    | some y => rfl

theorem term_opt {a : G} {t : Tx} (ha : Term U a t) : Term U (.opt a) t := by
  obtain ⟨r, hr⟩ := ha
  cases r with
  | none => exact ⟨_, ok_opt0 hr⟩
  | some x => exact ⟨_, ok_opt1 (p := x.1) (t' := x.2) hr⟩

theorem term_neg {a : G} {t : Tx} (ha : Term U a t) : Term U (.neg a) t := by
  obtain ⟨r, hr⟩ := ha
  cases r with
  | none => exact ⟨_, ok_neg hr⟩
  | some x => exact ⟨_, no_neg (p := x.1) (t' := x.2) hr⟩

theorem term_call {r : Rule} {t : Tx} (h : Term U (gram U r) t) : Term U (.call r) t := by
  obtain ⟨x, hx⟩ := h
  cases x with
  | none => exact ⟨_, no_call hx⟩
  | some x => exact ⟨_, ok_call' (p := x.1) (t' := x.2) hx⟩

theorem ok_short {e : G} {t t' : Tx} {p} (h : Ok (gram U) e t p t') :
    t'.length ≤ t.length ∧ (nul e = false → t'.length < t.length) := by
  obtain ⟨n, h⟩ := h
  exact run_short n h

/-- If the rules come to an end on the short texts, so does everything. -/
theorem term_below {L : Nat} (hc : ∀ r t, t.length < L → Term U (.call r) t) : ∀ (e : G), sok e = true →
    ∀ t, t.length < L → Term U e t := by
  intro e
  induction e with
  | lit s => intro _ t _; exact term_lit
  | chr p => intro _ t _; exact term_chr
  | seq a b iha ihb =>
    intro h t ht
    simp only [sok, Bool.and_eq_true] at h
    exact term_seq (iha h.1 t ht) fun p t' ho => ihb h.2 t' (by have := (ok_short ho).1; omega)
  | alt a b iha ihb =>
    intro h t ht
    simp only [sok, Bool.and_eq_true] at h
    exact term_alt (iha h.1 t ht) (ihb h.2 t ht)
  | star a iha =>
    intro h t ht
    simp only [sok, Bool.and_eq_true, Bool.not_eq_true'] at h
    generalize hm : t.length = m
    induction m using Nat.strongRecOn generalizing t with
    | _ m ih =>
      exact term_star (iha h.2 t ht) fun p t' ho => by
        have := (ok_short ho).2 h.1
        exact ih t'.length (by omega) t' (by omega) rfl
  | opt a iha => intro h t ht; exact term_opt (iha h t ht)
  | neg a iha => intro h t ht; exact term_neg (iha h t ht)
  | call r => intro _ t ht; exact hc r t ht

/-- If the rules come to an end on the shorter texts, and those of lower rank on this one, so does everything in front of which only
these rules are tried. -/
theorem term_at {L k : Nat} (hc : ∀ r t, t.length < L → Term U (.call r) t)
    (hk : ∀ r t, rk r < k → t.length = L → Term U (.call r) t) : ∀ (e : G), sok e = true → front k e = true →
    ∀ t, t.length = L → Term U e t := by
  intro e
  induction e with
  | lit s => intro _ _ t _; exact term_lit
  | chr p => intro _ _ t _; exact term_chr
  | seq a b iha ihb =>
    intro h h' t ht
    simp only [sok, Bool.and_eq_true] at h
    simp only [front, Bool.and_eq_true, Bool.or_eq_true, Bool.not_eq_true'] at h'
    refine term_seq (iha h.1 h'.1 t ht) fun p t' ho => ?_
    have hs := ok_short ho
    rcases h'.2 with hn | hf
    · have := hs.2 hn
      exact term_below hc b h.2 t' (by omega)
    · rcases Nat.lt_or_ge t'.length L with hl | hl
      · exact term_below hc b h.2 t' hl
      · exact ihb h.2 hf t' (by have := hs.1; omega)
  | alt a b iha ihb =>
    intro h h' t ht
    simp only [sok, front, Bool.and_eq_true] at h h'
    exact term_alt (iha h.1 h'.1 t ht) (ihb h.2 h'.2 t ht)
  | star a iha =>
    intro h h' t ht
    have h0 := h
    simp only [sok, Bool.and_eq_true, Bool.not_eq_true'] at h
    refine term_star (iha h.2 h' t ht) fun p t' ho => ?_
    have := (ok_short ho).2 h.1
    exact term_below hc _ h0 t' (by omega)
  | opt a iha => intro h h' t ht; exact term_opt (iha h h' t ht)
  | neg a iha => intro h h' t ht; exact term_neg (iha h h' t ht)
  | call r => intro _ h' t ht; exact hk r t (by simpa [front] using h') ht

theorem term_rules (t : Tx) (r : Rule) : Term U (.call r) t := by
  generalize hL : t.length = L
  induction L using Nat.strongRecOn generalizing t r with
  | _ L ih =>
    have hc : ∀ r t, t.length < L → Term U (.call r) t := fun r t ht => ih t.length ht t r rfl
    have : ∀ k r t, rk r < k → t.length = L → Term U (.call r) t := by
      intro k
      induction k with
      | zero => intro r t h; omega
      | succ k ihk =>
        intro r t h ht
        exact term_call (term_at (k := rk r) hc (fun r' t' hr' ht' => ihk r' t' (by omega) ht') _ (gram_sok r) (gram_front r) t ht)
    exact this (rk r + 1) r t (by omega) hL

end
end Txt2

open Txt2 in
open Prs (Out) in
/-- **C73.** Reading comes to an end on every text: the grammar has no left recursion and repeats nothing empty. From some number of
nested steps on there is a result, and it is always the same. -/
theorem C73_reading_ends (dbg : Bool) (U : Char → Bool) (s : Tx) :
    ∃ r : Out (List Stm), ∃ n, ∀ m, n ≤ m → readFile dbg U m s = some r := by
  obtain ⟨x, n, hn⟩ := term_rules (U := U) s .file
  cases x with
  | none => exact ⟨.err, n, fun m hm => by rw [readFile, run_le hn hm]⟩
  | some x =>
    obtain ⟨ps, t'⟩ := x
    cases ps with
    | nil => exact ⟨.panic, n, fun m hm => by rw [readFile, run_le hn hm]⟩
    | cons p ps => exact ⟨_, n, fun m hm => by rw [readFile, run_le hn hm]⟩

end CV
