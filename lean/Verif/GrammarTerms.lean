import Verif.GrammarSpec
/-
Terms are read as they are written: the grammar and the conversion of Grammar.lean against the specification of GrammarSpec.lean.
-/
set_option linter.unusedSimpArgs false
set_option linter.unusedVariables false
set_option linter.unusedSectionVars false
namespace CV
namespace Txt2
open Prs (Out)

section
variable {U : Char → Bool}

/-! ### Names -/

theorem ne_of_letter {c d : Char} (h : letter U c = true) (h' : letter U d = false) : c ≠ d := by
  rintro rfl; rw [h] at h'; cases h'

theorem ne_of_idc {c d : Char} (h : idc U c = true) (h' : idc U d = false) : c ≠ d := by
  rintro rfl; rw [h] at h'; cases h'

theorem letter_all : letter U '∀' = false := by simp [letter]
theorem letter_ex : letter U '∃' = false := by simp [letter]

theorem idc_letter {c : Char} (h : letter U c = true) : idc U c = true := by simp [idc, h]

theorem letter_of_idc_false {c : Char} (h : idc U c = false) : letter U c = false := by
  rw [Bool.eq_false_iff] at h ⊢
  exact fun x => h (idc_letter x)

theorem ws_of_idc {c : Char} (h : idc U c = true) : isWs c = false := by
  rw [Bool.eq_false_iff]
  intro hw
  simp only [isWs, Bool.or_eq_true, beq_iff_eq] at hw
  rcases hw with ((rfl | rfl) | rfl) | rfl <;> cases h

theorem solid_idc {c : Char} {s : Tx} (h : idc U c = true) : Solid (c :: s) :=
  solid_cons (ws_of_idc h) (ne_of_idc h rfl) (ne_of_idc h rfl) (ne_of_idc h rfl)

theorem solid_id {x s : Tx} (h : IdTx U x) : Solid (x ++ s) := by
  obtain ⟨c, r, rfl, hc, _⟩ := h
  exact solid_idc (idc_letter hc)

theorem solid_var {x s : Tx} (h : VarTx U x) : Solid (x ++ s) := by
  rcases h with h | ⟨r, rfl, h⟩
  · exact solid_id h
  · exact solid_cons rfl (by decide) (by decide) (by decide)

theorem VPlain.var {x : Tx} (h : VPlain U x) : VarTx U x := h.imp Plain.id fun h => h

theorem star_idc {rest : Tx} (h : idc U (hd rest) = false) : ∀ (r : Tx), (∀ d ∈ r, idc U d = true) →
    Ok (gram U) (.star (.chr (idc U))) (r ++ rest) [] rest := by
  intro r
  induction r with
  | nil =>
    intro _
    cases rest with
    | nil => exact ok_star0 no_chr_nil
    | cons c s => exact ok_star0 (no_chr h)
  | cons d r ih =>
    intro hr
    exact ok_star1 (p := []) (q := []) (ok_chr (hr d List.mem_cons_self)) (ih fun e he => hr e (List.mem_cons_of_mem _ he))

theorem ident_ok {x rest : Tx} (h : IdTx U x) (hr : idc U (hd rest) = false) :
    Ok (gram U) (.call .ident) (x ++ rest) [.node .ident x []] rest := by
  obtain ⟨c, r, rfl, hc, hx⟩ := h
  exact ok_call (ok_seq (p := []) (q := []) (ok_chr hc) (star_idc hr r hx))

theorem no_ident {t : Tx} (h : letter U (hd t) = false) : No (gram U) (.call .ident) t := by
  refine no_call (no_seq1 ?_)
  cases t with
  | nil => exact no_chr_nil
  | cons c t => exact no_chr h

theorem name_ok {k : Rule} (hk : gram U k = .call .ident) {x rest : Tx} (h : IdTx U x) (hr : idc U (hd rest) = false) :
    Ok (gram U) (.call k) (x ++ rest) [.node k x [.node .ident x []]] rest :=
  ok_call (hk ▸ ident_ok h hr)

theorem no_name {k : Rule} (hk : gram U k = .call .ident) {t : Tx} (h : letter U (hd t) = false) :
    No (gram U) (.call k) t := no_call (hk ▸ no_ident h)

theorem var_ok {x rest : Tx} (h : VarTx U x) (hr : idc U (hd rest) = false) :
    ∃ k, Ok (gram U) (.call .variable) (x ++ rest) [.node .variable x k] rest := by
  rcases h with h | ⟨r, rfl, h⟩
  · refine ⟨_, ok_call (ok_seq (p := []) (ok_opt0 (no_call (no_lit_hd ?_))) (ident_ok h hr))⟩
    obtain ⟨c, r, rfl, hc, _⟩ := h
    exact ne_of_letter hc rfl
  · exact ⟨_, ok_call (ok_seq (t' := r ++ rest) (ok_opt1 (ok_call (s := c!"_") ok_lit)) (ident_ok h hr))⟩

theorem no_var {t : Tx} (h : letter U (hd t) = false) (h' : hd t ≠ '_') : No (gram U) (.call .variable) t :=
  no_call (no_seq2 (ok_opt0 (no_call (no_lit_hd h'))) (no_ident h))

/-! ### What follows -/

/-- The text `w ++ s` may follow: blanks, and then something that does not continue what was read. -/
structure Fol (U : Char → Bool) (o : Bool) (w s : Tx) : Prop where
  blank : Blank w
  solid : Solid s
  br : o = true → hd s ≠ '(' ∧ hd s ≠ '[' ∧ hd s ≠ ':'
  adj : o = true → idc U (hd (w ++ s)) = false ∧ hd (w ++ s) ≠ '!'

theorem blank_hd {w s : Tx} (h : Blank w) (hn : w ≠ []) : idc U (hd (w ++ s)) = false ∧ hd (w ++ s) ≠ '!' ∧
    hd (w ++ s) ≠ '*' := by
  cases h with
  | nil => exact absurd rfl hn
  | ws c w hc _ =>
    simp only [Sp, Bool.or_eq_true, beq_iff_eq] at hc
    rcases hc with ((rfl | rfl) | rfl) | rfl <;> exact ⟨rfl, by simp [hd], by simp [hd]⟩
  | c b w _ _ => exact ⟨rfl, by simp [hd], by simp [hd]⟩
  | ml b w _ _ => exact ⟨rfl, by simp [hd], by simp [hd]⟩

theorem Fol.sep {o : Bool} {w s : Tx} (h : Sep o w) (hs : Solid s) (h' : hd s ≠ '(' ∧ hd s ≠ '[' ∧ hd s ≠ ':') : Fol U o w s :=
  ⟨h.1, hs, fun _ => h', fun ho => ⟨(blank_hd h.1 (h.2 ho)).1, (blank_hd (U := U) h.1 (h.2 ho)).2.1⟩⟩

theorem Fol.sym {o : Bool} {w s : Tx} {c : Char} (h : Blank w) (hs : Solid (c :: s)) (hi : idc U c = false)
    (h' : c ≠ '(' ∧ c ≠ '[' ∧ c ≠ ':' ∧ c ≠ '!') : Fol U o w (c :: s) := by
  refine ⟨h, hs, fun _ => ⟨h'.1, h'.2.1, h'.2.2.1⟩, fun _ => ?_⟩
  cases w with
  | nil => exact ⟨hi, h'.2.2.2⟩
  | cons d w => exact ⟨(blank_hd h (by simp)).1, (blank_hd (U := U) h (by simp)).2.1⟩

theorem Fol.closed {w s : Tx} (h : Blank w) (hs : Solid s) : Fol U false w s :=
  ⟨h, hs, fun h => (by cases h), fun h => (by cases h)⟩

theorem solid_open {w s : Tx} (h : Blank w) (hs : Solid s) : Solid ('(' :: (w ++ s)) := by
  refine ⟨rfl, by simp [hd], by simp [hd], fun _ => ?_⟩
  cases w with
  | nil => exact hs.2.2.1
  | cons c w => exact (blank_hd (U := fun _ => false) h (by simp)).2.2

/-! ### Keywords -/

theorem pre_eq {rest : Tx} (hr : idc U (hd rest) = false) : ∀ (k x : Tx), (∀ d ∈ k, idc U d = true) →
    k.isPrefixOf (x ++ rest) = k.isPrefixOf x := by
  intro k
  induction k with
  | nil => intro x _; simp [List.isPrefixOf]
  | cons a k ih =>
    intro x hk
    cases x with
    | nil =>
      cases rest with
      | nil => rfl
      | cons c s =>
        have : (a == c) = false := by
          rw [beq_eq_false_iff_ne]
          exact ne_of_idc (hk a List.mem_cons_self) hr
        simp [List.isPrefixOf, this]
    | cons b x =>
      simp only [List.cons_append, List.isPrefixOf]
      rw [ih x fun d hd => hk d (List.mem_cons_of_mem _ hd)]

theorem kw_split {rest k x : Tx} (hr : idc U (hd rest) = false) (hk : ∀ d ∈ k, idc U d = true) :
    No (gram U) (.lit k) (x ++ rest) ∨ ∃ r, x = k ++ r := by
  cases h : k.isPrefixOf x with
  | false => exact .inl (no_lit (by rw [pre_eq hr k x hk, h]))
  | true =>
    rw [List.isPrefixOf_iff_prefix] at h
    obtain ⟨r, rfl⟩ := h
    exact .inr ⟨r, rfl⟩

theorem no_bnd {r w s : Tx} (hr : ∀ d ∈ r, idc U d = true) (h1 : idc U (hd (w ++ s)) = false) (hb : Blank w) (hs : Solid s)
    (h2 : hd s ≠ ':') : No (gram U) (.call .variable_binding) (r ++ (w ++ s)) := by
  refine no_call ?_
  have key : ∀ x, VarTx U x → No (gram U) (gram U .variable_binding) (x ++ (w ++ s)) := by
    intro x hx
    obtain ⟨k, hk⟩ := var_ok hx h1
    exact no_then2 hk hb hs (no_then1 (no_lit_hd h2))
  cases r with
  | nil =>
    refine no_then1 (no_var (letter_of_idc_false h1) ?_)
    intro he
    simp only [List.nil_append] at he
    rw [he] at h1
    exact absurd h1 (by simp [show idc U '_' = true from rfl])
  | cons c r =>
    by_cases hc : letter U c = true
    · exact key _ (.inl ⟨c, r, rfl, hc, fun d hd => hr d (List.mem_cons_of_mem _ hd)⟩)
    · rw [Bool.not_eq_true] at hc
      by_cases hu : c = '_'
      · subst hu
        cases r with
        | nil =>
          refine no_then1 (no_call (no_seq2 (t' := w ++ s) (ok_opt1 (ok_call (s := c!"_") ok_lit)) ?_))
          exact no_ident (letter_of_idc_false h1)
        | cons d r =>
          by_cases hd' : letter U d = true
          · exact key _ (.inr ⟨d :: r, rfl, d, r, rfl, hd', fun e he => hr e (by simp [he])⟩)
          · rw [Bool.not_eq_true] at hd'
            refine no_then1 (no_call (no_seq2 (t' := d :: r ++ (w ++ s)) (ok_opt1 (ok_call (s := c!"_") ok_lit)) ?_))
            exact no_ident hd'
      · exact no_then1 (no_var hc hu)

theorem idc_of_id {x : Tx} (h : IdTx U x) : ∀ d ∈ x, idc U d = true := by
  obtain ⟨c, r, rfl, hc, hr⟩ := h
  intro d hd
  rcases List.mem_cons.1 hd with rfl | hd
  · exact idc_letter hc
  · exact hr d hd

theorem no_bracketed {t : Tx} (h : hd t ≠ '{') : No (gram U) bracketed t := no_then1 (no_lit_hd h)

/-- A plain name starts none of the constructions with keywords. -/
theorem plain_front {x w s : Tx} (h : Plain U x) (h1 : idc U (hd (w ++ s)) = false) (hb : Blank w) (hs : Solid s)
    (h2 : hd s ≠ ':') : No (gram U) (.call .let_in) (x ++ (w ++ s)) ∧ No (gram U) (.call .if_then_else) (x ++ (w ++ s)) ∧
      No (gram U) (.call .find_such_that) (x ++ (w ++ s)) ∧ No (gram U) (.call .quantifier) (x ++ (w ++ s)) := by
  have hall := idc_of_id h.id
  have split : ∀ {k r : Tx}, x = k ++ r → x ≠ k → ∃ d r', r = d :: r' := by
    intro k r e n
    cases r with
    | nil => exact absurd (by simpa using e) n
    | cons d r' => exact ⟨d, r', rfl⟩
  have nocall : ∀ k : Tx, (∀ d ∈ k, idc U d = true) → k.isPrefixOf x = false → No (gram U) (.lit k) (x ++ (w ++ s)) := by
    intro k hk hp
    exact no_lit (by rw [pre_eq h1 k x hk, hp])
  have quantNo : ∀ {r : Tx}, (∃ d r', r = d :: r' ∧ idc U d = true) → ∀ {op : Tx},
      (∃ p, Ok (gram U) (gram U .quantifier_op) (op ++ (r ++ (w ++ s))) p (r ++ (w ++ s))) →
      No (gram U) (.call .quantifier) (op ++ (r ++ (w ++ s))) := by
    rintro r ⟨d, r', rfl, hd'⟩ op ⟨p, hp⟩
    replace hp := ok_call hp
    have hsol : Solid (d :: r' ++ (w ++ s)) := solid_idc hd'
    refine no_call (no_then2 (w := []) hp .nil hsol ?_)
    refine no_then2 (w := []) (ok_call' (ok_opt0 (no_then1 (no_lit_hd (ne_of_idc hd' rfl))))) .nil hsol ?_
    exact no_bracketed (ne_of_idc hd' rfl)
  refine ⟨?_, ?_, ?_, ?_⟩
  · rcases kw_split (k := c!"let") (x := x) h1 (List.all_eq_true.1 rfl) with hn | ⟨r, rfl⟩
    · exact no_call (no_then1 hn)
    · obtain ⟨d, r', rfl⟩ := split rfl h.nlet
      have hd' : ∀ e ∈ d :: r', idc U e = true := fun e he => hall e (by simp only [List.mem_append]; exact .inr he)
      rw [List.append_assoc]
      refine no_call ?_
      exact no_then2 (w := []) (t' := d :: r' ++ (w ++ s)) ok_lit .nil (solid_idc (hd' d List.mem_cons_self))
        (no_then1 (no_bnd hd' h1 hb hs h2))
  · exact no_call (no_then1 (nocall _ (List.all_eq_true.1 rfl) h.nif))
  · rcases kw_split (k := c!"try") (x := x) h1 (List.all_eq_true.1 rfl) with hn | ⟨r, rfl⟩
    · exact no_call (no_then1 hn)
    · obtain ⟨d, r', rfl⟩ := split rfl h.ntry
      have hd' : ∀ e ∈ d :: r', idc U e = true := fun e he => hall e (by simp only [List.mem_append]; exact .inr he)
      rw [List.append_assoc]
      refine no_call ?_
      refine no_then2 (w := []) (t' := d :: r' ++ (w ++ s)) ok_lit .nil (solid_idc (hd' d List.mem_cons_self)) (no_then1 ?_)
      apply no_lit
      rw [pre_eq h1 _ _ (List.all_eq_true.1 rfl)]
      have := h.nfind
      simpa [List.isPrefixOf] using this
  · rcases kw_split (k := c!"exists") (x := x) h1 (List.all_eq_true.1 rfl) with hn | ⟨r, rfl⟩
    · rcases kw_split (k := c!"forall") (x := x) h1 (List.all_eq_true.1 rfl) with hn' | ⟨r, rfl⟩
      · obtain ⟨c, r, rfl, hc, _⟩ := h.id
        exact no_call (no_then1 (no_call (alt2 (no_call (alt2 hn (no_lit_hd (ne_of_letter hc letter_ex))))
          (no_call (alt2 hn' (no_lit_hd (ne_of_letter hc letter_all)))))))
      · obtain ⟨d, r', rfl⟩ := split rfl h.nall
        rw [List.append_assoc]
        exact quantNo ⟨d, r', rfl, hall d (by simp)⟩ ⟨_, alt2 (no_call (alt2 (no_lit rfl) (no_lit rfl)))
          (ok_call (ok_alt1 ok_lit))⟩
    · obtain ⟨d, r', rfl⟩ := split rfl h.nex
      rw [List.append_assoc]
      exact quantNo ⟨d, r', rfl, hall d (by simp)⟩ ⟨_, ok_alt1 (ok_call (ok_alt1 ok_lit))⟩

/-! ### Terms that do not start -/

/-- The character starts no term. -/
theorem no_term {t : Tx} (h : letter U (hd t) = false) (h1 : hd t ≠ '_') (h2 : hd t ≠ '(') (h3 : hd t ≠ '∀')
    (h4 : hd t ≠ '∃') : No (gram U) (.call .term) t := by
  have h' : ∀ {c : Char} {k : Tx}, letter U c = true → No (gram U) (.lit (c :: k)) t :=
    fun hc => no_lit_hd fun e => by rw [e] at h; rw [hc] at h; cases h
  refine no_call (no_call (alt2 (no_call ?_) (no_call (no_then1 (no_lit_hd h2)))))
  refine alt2 (no_call (no_then1 (h' rfl))) (alt2 (no_call (no_then1 (h' rfl))) (alt2 (no_call (no_then1 (h' rfl))) ?_))
  refine alt2 (no_call (no_then1 (no_call (alt2 (no_call (alt2 (h' rfl) (no_lit_hd h4)))
    (no_call (alt2 (h' rfl) (no_lit_hd h3))))))) ?_
  exact alt2 (no_call (no_then1 (no_call (no_seq1 (no_ident h))))) (no_call (no_then1 (alt2 (no_name rfl h) (no_var h h1))))

theorem no_term_sym {c : Char} {s : Tx} (h : letter U c = false) (h1 : c ≠ '_') (h2 : c ≠ '(') (h3 : c ≠ '∀')
    (h4 : c ≠ '∃') : No (gram U) (.call .term) (c :: s) := no_term (t := c :: s) h h1 h2 h3 h4

/-! ### Reading -/

variable (U) (dbg : Bool)

/-- The term written as `s` is read when something allowed follows. -/
def Rd (o : Bool) (t : Tm) (s : Tx) : Prop := (∀ r, Solid (s ++ r)) ∧ ∀ w r, Fol U o w r →
  ∃ p v, Blank v ∧ Ok (gram U) (.call .term) (s ++ (w ++ r)) [p] (v ++ r) ∧ cTerm dbg p = .ok t

/-- The application written as `s` is read when something allowed follows. -/
def RdAppl (o : Bool) (a : Appl) (s : Tx) : Prop := (∀ r, Solid (s ++ r)) ∧ ∀ w r, Fol U o w r →
  ∃ x ks v, Blank v ∧ Ok (gram U) (.call .application) (s ++ (w ++ r)) [.node .application x ks] (v ++ r) ∧
    cAppl dbg ks = .ok a ∧ No (gram U) (.call .let_in) (s ++ (w ++ r)) ∧ No (gram U) (.call .if_then_else) (s ++ (w ++ r)) ∧
    No (gram U) (.call .find_such_that) (s ++ (w ++ r)) ∧ No (gram U) (.call .quantifier) (s ++ (w ++ r)) ∧
    No (gram U) (.call .macro_application) (s ++ (w ++ r))

variable {U} {dbg}

theorem elem_tm {cl : Char} (hcl : cl = ')' ∨ cl = ']') :
    Elem (gram U) (.call .term) cl (fun a t => ∃ o, Rd U dbg o a t) (fun p a => cTerm dbg p = .ok a) := by
  refine ⟨fun a t s ⟨o, h⟩ => h.1 s, ?_, ?_⟩
  · rintro a t w s c ⟨o, h⟩ hw hc
    obtain ⟨p, v, h1, h2, h3⟩ := h.2 w (c :: s) (by
      rcases hc with rfl | rfl
      · exact Fol.sym hw (solid_cons rfl (by decide) (by decide) (by decide)) rfl (by decide)
      · rcases hcl with rfl | rfl <;>
        exact Fol.sym hw (solid_cons rfl (by decide) (by decide) (by decide)) rfl (by decide))
    exact ⟨p, v, h1, h2, h3⟩
  · intro s
    rcases hcl with rfl | rfl <;> exact no_term_sym rfl (by decide) (by decide) (by decide) (by decide)

theorem items_solid {α : Type} {W : α → Tx → Prop} (hW : ∀ a t r, W a t → Solid (t ++ r)) {l : List α} {s : Tx}
    (I : Items W l s) {cl : Char} {r : Tx} (h : Solid (cl :: r)) : Solid (s ++ cl :: r) := by
  cases I with
  | nil => exact h
  | one a t w ha _ => rw [List.append_assoc]; exact hW a t _ ha
  | cons a l t w w' s ha _ _ _ => rw [List.append_assoc]; exact hW a t _ ha

theorem inner_gen {α : Type} {W : α → Tx → Prop} {C : Pair → α → Prop}
    (E : ∀ {cl : Char}, cl = ')' ∨ cl = ']' → Elem (gram U) (.call .term) cl W C) {l : List α} {s : Tx} (I : Items W l s)
    {o c : Char} (hb : Br o c) {w : Tx} (hw : Blank w) (r : Tx) : Solid (o :: (w ++ (s ++ c :: r))) ∧
      ∃ ps, Ok (gram U) innerApp (o :: (w ++ (s ++ c :: r))) ps r ∧ List.Forall₂ C ps l := by
  rcases hb with ⟨rfl, rfl⟩ | ⟨rfl, rfl⟩
  · refine ⟨solid_open hw (items_solid (E (.inl rfl)).solid I (solid_cons rfl (by decide) (by decide) (by decide))), ?_⟩
    obtain ⟨ps, h, hc⟩ := listOf_ok (opn := c!"(") (E (.inl rfl))
      (solid_cons rfl (by decide) (by decide) (by decide)) (by decide) I hw r
    exact ⟨ps, ok_alt1 h, hc⟩
  · refine ⟨solid_cons rfl (by decide) (by decide) (by decide), ?_⟩
    obtain ⟨ps, h, hc⟩ := listOf_ok (opn := c!"[") (E (.inr rfl))
      (solid_cons rfl (by decide) (by decide) (by decide)) (by decide) I hw r
    exact ⟨ps, alt2 (no_then1 (no_lit_hd (by simp [hd]))) h, hc⟩

theorem inner_ok {l : List Tm} {s : Tx} (I : Items (fun a t => ∃ o, Rd U dbg o a t) l s) {o c : Char} (hb : Br o c) {w : Tx}
    (hw : Blank w) (r : Tx) : Solid (o :: (w ++ (s ++ c :: r))) ∧
      ∃ ps, Ok (gram U) innerApp (o :: (w ++ (s ++ c :: r))) ps r ∧ List.Forall₂ (fun p a => cTerm dbg p = .ok a) ps l :=
  inner_gen (fun h => elem_tm h) I hb hw r

theorem cTerms_ok {ps : List Pair} {l : List Tm} (h : List.Forall₂ (fun p a => cTerm dbg p = .ok a) ps l) :
    cTerms dbg ps = .ok l := by
  induction h with
  | nil => simp [cTerms]
  | cons h _ ih => simp [cTerms, h, ih, Out.bind]

theorem cName_ok {r : Rule} {x y : Tx} : cName dbg r (.node r x [.node .ident y []]) = .ok (String.ofList y) := by
  simp [cName, chk, Pair.rule, Pair.kids, cIdent, Pair.text]

theorem no_inner {t : Tx} (h1 : hd t ≠ '(') (h2 : hd t ≠ '[') : No (gram U) innerApp t :=
  alt2 (no_then1 (no_lit_hd h1)) (no_then1 (no_lit_hd h2))

/-- The name at the head of an application. -/
theorem head_ok {x rest : Tx} (h : VPlain U x) (hr : idc U (hd rest) = false) : ∃ k, k.text = x ∧
    Ok (gram U) (.alt (.call .function) (.call .variable)) (x ++ rest) [k] rest := by
  rcases h with h | ⟨r, rfl, h⟩
  · exact ⟨_, rfl, ok_alt1 (name_ok rfl h.id hr)⟩
  · obtain ⟨k, hk⟩ := var_ok (.inr ⟨r, rfl, h⟩) hr
    exact ⟨_, rfl, alt2 (no_name rfl rfl) hk⟩

theorem no_macro {x rest : Tx} (h : VPlain U x) (hr : idc U (hd rest) = false) (hn : hd rest ≠ '!') :
    No (gram U) (.call .macro_application) (x ++ rest) := by
  refine no_call (no_then1 (no_call ?_))
  rcases h with h | ⟨r, rfl, h⟩
  · exact no_seq2 (ident_ok h.id hr) (no_lit_hd hn)
  · exact no_seq1 (no_ident rfl)

/-- Nothing else starts where a name starts. -/
theorem vplain_front {x w s : Tx} (h : VPlain U x) (h1 : idc U (hd (w ++ s)) = false) (hb : Blank w) (hs : Solid s)
    (h2 : hd s ≠ ':') : No (gram U) (.call .let_in) (x ++ (w ++ s)) ∧ No (gram U) (.call .if_then_else) (x ++ (w ++ s)) ∧
      No (gram U) (.call .find_such_that) (x ++ (w ++ s)) ∧ No (gram U) (.call .quantifier) (x ++ (w ++ s)) := by
  rcases h with h | ⟨r, rfl, h⟩
  · exact plain_front h h1 hb hs h2
  · refine ⟨no_call (no_then1 (no_lit rfl)), no_call (no_then1 (no_lit rfl)), no_call (no_then1 (no_lit rfl)),
      no_call (no_then1 (no_call (alt2 (no_call (alt2 (no_lit rfl) (no_lit rfl))) (no_call (alt2 (no_lit rfl) (no_lit rfl))))))⟩

theorem idc_br {o c : Char} (h : Br o c) : idc U o = false ∧ o ≠ '!' ∧ o ≠ ':' := by
  rcases h with ⟨rfl, rfl⟩ | ⟨rfl, rfl⟩ <;> exact ⟨rfl, by decide, by decide⟩

theorem hd_br {w s : Tx} {o c : Char} (h : Br o c) (hw : Blank w) : idc U (hd (w ++ o :: s)) = false ∧ hd (w ++ o :: s) ≠ '!' := by
  cases w with
  | nil => exact ⟨(idc_br h).1, (idc_br (U := U) h).2.1⟩
  | cons d w => exact ⟨(blank_hd hw (by simp)).1, (blank_hd (U := U) hw (by simp)).2.1⟩

theorem solid_plain {x : Tx} (h : VPlain U x) (r : Tx) : Solid (x ++ r) := solid_var h.var

theorem rd_const {x : String} (h : VPlain U x.toList) : RdAppl U dbg true (.const x) x.toList := by
  refine ⟨solid_plain h, fun w r f => ?_⟩
  obtain ⟨f1, f2⟩ := f.adj rfl
  obtain ⟨b1, b2, b3⟩ := f.br rfl
  obtain ⟨k, hk, hok⟩ := head_ok h f1
  obtain ⟨n1, n2, n3, n4⟩ := vplain_front h f1 f.blank f.solid b3
  refine ⟨_, [k], [], .nil, ok_call' (ok_then hok f.blank f.solid (ok_opt0 (no_inner b1 b2))), ?_, n1, n2, n3, n4,
    no_macro h f1 f2⟩
  simp [cAppl, hk]

/-- A name and brackets. -/
theorem rd_brackets {x : Tx} (h : VPlain U x) {l : List Tm} {s : Tx} (I : Items (fun a t => ∃ o, Rd U dbg o a t) l s)
    {o c : Char} (hb : Br o c) {w w' : Tx} (hw : Blank w) (hw' : Blank w') (r : Tx) :
    ∃ k ps y, k.text = x ∧ (Plain U x → cName dbg .function k = .ok (String.ofList x)) ∧
      Ok (gram U) (.call .application) (x ++ (w ++ (o :: (w' ++ (s ++ c :: r))))) [.node .application y (k :: ps)] r ∧
      List.Forall₂ (fun p a => cTerm dbg p = .ok a) ps l ∧
      No (gram U) (.call .let_in) (x ++ (w ++ (o :: (w' ++ (s ++ c :: r))))) ∧
      No (gram U) (.call .if_then_else) (x ++ (w ++ (o :: (w' ++ (s ++ c :: r))))) ∧
      No (gram U) (.call .find_such_that) (x ++ (w ++ (o :: (w' ++ (s ++ c :: r))))) ∧
      No (gram U) (.call .quantifier) (x ++ (w ++ (o :: (w' ++ (s ++ c :: r))))) ∧
      No (gram U) (.call .macro_application) (x ++ (w ++ (o :: (w' ++ (s ++ c :: r))))) := by
  obtain ⟨hs, ps, hps, hc⟩ := inner_ok I hb hw' r
  obtain ⟨g1, g2⟩ := hd_br (U := U) (s := w' ++ (s ++ c :: r)) hb hw
  obtain ⟨n1, n2, n3, n4⟩ := vplain_front h g1 hw hs (idc_br (U := U) hb).2.2
  have hk : ∃ k, k.text = x ∧ (Plain U x → cName dbg .function k = .ok (String.ofList x)) ∧
      Ok (gram U) (.alt (.call .function) (.call .variable)) (x ++ (w ++ (o :: (w' ++ (s ++ c :: r))))) [k]
        (w ++ (o :: (w' ++ (s ++ c :: r)))) := by
    rcases h with h | ⟨r', rfl, h⟩
    · exact ⟨_, rfl, fun _ => cName_ok, ok_alt1 (name_ok rfl h.id g1)⟩
    · obtain ⟨k, hk⟩ := var_ok (.inr ⟨r', rfl, h⟩) g1
      refine ⟨_, rfl, fun hp => ?_, alt2 (no_name rfl rfl) hk⟩
      obtain ⟨c, r, e, hc, _⟩ := hp.id
      cases e
      cases hc
  obtain ⟨k, hk, hn, hok⟩ := hk
  exact ⟨k, ps, _, hk, hn, ok_call' (ok_then hok hw hs (ok_opt1 hps)), hc, n1, n2, n3, n4, no_macro h g1 g2⟩

theorem rd_const0 {x : String} (h : VPlain U x.toList) {o c : Char} (hb : Br o c) {w w' : Tx} (hw : Blank w) (hw' : Blank w') :
    RdAppl U dbg false (.const x) (x.toList ++ (w ++ (o :: (w' ++ [c])))) := by
  refine ⟨fun r => by rw [List.append_assoc]; exact solid_plain h _, fun w₁ r f => ?_⟩
  obtain ⟨k, ps, y, hk, hn, hok, hc, rest⟩ := rd_brackets (dbg := dbg) h .nil hb hw hw' (w₁ ++ r)
  cases hc
  refine ⟨y, [k], w₁, f.blank, by simpa using hok, by simp [cAppl, hk], ?_⟩
  simpa using rest

theorem rd_app {f : String} (h : Plain U f.toList) {a : Tm} {l : List Tm} {s : Tx}
    (I : Items (fun a t => ∃ o, Rd U dbg o a t) (a :: l) s)
    {o c : Char} (hb : Br o c) {w w' : Tx} (hw : Blank w) (hw' : Blank w') :
    RdAppl U dbg false (.app f (a :: l)) (f.toList ++ (w ++ (o :: (w' ++ (s ++ [c]))))) := by
  refine ⟨fun r => by rw [List.append_assoc]; exact solid_plain (.inl h) _, fun w₁ r fo => ?_⟩
  obtain ⟨k, ps, y, hk, hn, hok, hc, rest⟩ := rd_brackets (dbg := dbg) (.inl h) I hb hw hw' (w₁ ++ r)
  refine ⟨y, k :: ps, w₁, fo.blank, by simpa using hok, ?_, by simpa using rest⟩
  have hcs := cTerms_ok hc
  cases hc with
  | cons h1 h2 =>
    rw [cAppl]
    rw [hcs]
    simp [hn h, Out.bind]

/-- From a construction to the term. -/
theorem rd_commun {T T' : Tx} {k : Pair} (h : Ok (gram U) (gram U .commun_base) T [k] T') : ∃ x y z,
    Ok (gram U) (.call .term) T [.node .term x [.node .inner_term y [.node .commun_base z [k]]]] T' :=
  ⟨_, _, _, ok_call' (ok_call' (ok_alt1 (ok_call' h)))⟩

theorem rd_appl {o : Bool} {a : Appl} {s : Tx} (h : RdAppl U dbg o a s) : Rd U dbg o a.tm s := by
  refine ⟨h.1, fun w r f => ?_⟩
  obtain ⟨x, ks, v, hv, hok, hc, n1, n2, n3, n4, n5⟩ := h.2 w r f
  obtain ⟨x', y, z, hh⟩ := rd_commun (alt2 n1 (alt2 n2 (alt2 n3 (alt2 n4 (alt2 n5 hok)))))
  refine ⟨_, v, hv, hh, ?_⟩
  simp [cTerm, hc, Out.bind]

/-! ### Bindings -/

theorem bnd_ok {b : Bnd} {t rest : Tx} (h : WBnd U b t) (hr : idc U (hd rest) = false) :
    ∃ p, Ok (gram U) (.call .variable_binding) (t ++ rest) [p] rest ∧ cBnd dbg p = .ok b := by
  cases h with
  | mk x T w w' hx hT hw hw' =>
    have h1 : idc U (hd (w ++ ':' :: (w' ++ (T.toList ++ rest)))) = false := by
      cases w with
      | nil => rfl
      | cons d w => exact (blank_hd hw (by simp)).1
    obtain ⟨k, hk⟩ := var_ok hx h1
    have h2 := ok_then (gr := gram U) hk hw (solid_cons rfl (by decide) (by decide) (by decide))
      (ok_lit_then (k := c!":") hw' (solid_id hT) (name_ok (k := .type_name) rfl hT hr))
    refine ⟨_, by simpa using ok_call' (r := .variable_binding) h2, ?_⟩
    simp [cBnd, chk, Pair.rule, Pair.kids, cVar, Pair.text, cName_ok, Out.bind]

theorem solid_bnd {b : Bnd} {t : Tx} (h : WBnd U b t) (r : Tx) : Solid (t ++ r) := by
  cases h with
  | mk x T w w' hx hT hw hw' => rw [List.append_assoc]; exact solid_var hx

theorem hd_sym {w s : Tx} {c : Char} (h : idc U c = false) (hw : Blank w) : idc U (hd (w ++ c :: s)) = false := by
  cases w with
  | nil => exact h
  | cons d w => exact (blank_hd hw (by simp)).1

theorem elem_bnd : Elem (gram U) (.call .variable_binding) ')' (fun b t => WBnd U b t) (fun p b => cBnd dbg p = .ok b) := by
  refine ⟨fun a t s h => solid_bnd h s, fun a t w s c h hw hc => ?_, fun s => no_call (no_then1 (no_var rfl (by simp [hd])))⟩
  obtain ⟨p, h1, h2⟩ := bnd_ok (dbg := dbg) (rest := w ++ c :: s) h (by
    rcases hc with rfl | rfl <;> exact hd_sym rfl hw)
  exact ⟨p, w, hw, h1, h2⟩

theorem cAll_ok {α : Type} {f : Pair → Out α} {ps : List Pair} {l : List α} (h : List.Forall₂ (fun p a => f p = .ok a) ps l) :
    cAll f ps = .ok l := by
  induction h with
  | nil => rfl
  | cons h _ ih => simp [cAll, h, ih, Out.bind]

/-- The variables between something and something else. -/
theorem ta_then {a B : G} {t w₁ b w₂ t' t'' : Tx} {p q : List Pair} {l : List Bnd} (hw₁ : Blank w₁) (hb : WBnds U l b)
    (hw₂ : Blank w₂) (h : Ok (gram U) a t p (w₁ ++ (b ++ (w₂ ++ t')))) (hs : Solid t') (hn : b = [] → hd t' ≠ '(')
    (h' : Ok (gram U) B t' q t'') :
    ∃ x, cBnds dbg x = .ok l ∧ Ok (gram U) (a ~~ .call .typed_arguments ~~ B) t (p ++ x :: q) t'' := by
  cases hb with
  | none =>
    refine ⟨_, ?_, ok_then (w := w₁ ++ w₂) (by simpa using h) (hw₁.append hw₂) hs
      (ok_then (w := []) (ok_call' (ok_opt0 (no_then1 (no_lit_hd (hn rfl))))) .nil hs h')⟩
    simp [cBnds, chk, Pair.rule, Pair.kids, cAll]
  | some l w s hw I =>
    obtain ⟨ps, h1, h2⟩ := listOf_ok (opn := c!"(") (elem_bnd (U := U) (dbg := dbg))
      (solid_cons rfl (by decide) (by decide) (by decide)) (by decide) I hw (w₂ ++ t')
    refine ⟨_, ?_, ok_then (w := w₁) (by simpa using h) hw₁ (solid_open hw (items_solid (fun a t r h => solid_bnd h r) I
      (solid_cons rfl (by decide) (by decide) (by decide)))) (ok_then (ok_call' (ok_opt1 h1)) hw₂ hs h')⟩
    simp [cBnds, chk, Pair.rule, Pair.kids, cAll_ok h2]

theorem solid_bnds {l : List Bnd} {b w t : Tx} (h : WBnds U l b) (hs : Solid t) (hw : Blank w) (hn : b = [] → w = []) :
    Solid (b ++ (w ++ t)) := by
  cases h with
  | none => rw [hn rfl]; exact hs
  | some l w' s hw' I =>
    simpa using solid_open hw' (items_solid (fun a t r h => solid_bnd h r) I
      (solid_cons rfl (by decide) (by decide) (by decide) : Solid (')' :: (w ++ t))))

/-! ### Pieces of terms -/

theorem bracketed_ok {o : Bool} {t : Tm} {s : Tx} (h : Rd U dbg o t s) {w₁ w₂ : Tx} (hw₁ : Blank w₁) (hw₂ : Blank w₂)
    (rest : Tx) : ∃ p, cTerm dbg p = .ok t ∧ Ok (gram U) bracketed ('{' :: (w₁ ++ (s ++ (w₂ ++ '}' :: rest)))) [p] rest := by
  have hs : Solid ('}' :: rest) := solid_cons rfl (by decide) (by decide) (by decide)
  obtain ⟨p, v, hv, hok, hc⟩ := h.2 w₂ ('}' :: rest) (Fol.sym hw₂ hs rfl (by decide))
  refine ⟨p, hc, ?_⟩
  have := ok_lit_then (gr := gram U) (k := c!"{") hw₁ (h.1 _) (ok_then hok hv hs (ok_lit (s := c!"}") (t := rest)))
  simpa [bracketed] using this

theorem solid_brace (s : Tx) : Solid ('{' :: s) := solid_cons rfl (by decide) (by decide) (by decide)
theorem solid_kw {c : Char} {s : Tx} (h : idc U c = true) : Solid (c :: s) := solid_idc h

theorem wq_ok {k : AQ} {q : Tx} (h : WQ k q) (rest : Tx) : ∃ x, cQuant dbg x = .ok k ∧
    Ok (gram U) (.call .quantifier_op) (q ++ rest) [x] rest := by
  cases h with
  | all => exact ⟨_, by simp [cQuant, cOne, chk, Pair.rule, Pair.kids], ok_call' (alt2 (no_call (alt2 (no_lit rfl) (no_lit rfl)))
      (ok_call (ok_alt1 ok_lit)))⟩
  | all' => exact ⟨_, by simp [cQuant, cOne, chk, Pair.rule, Pair.kids], ok_call' (alt2 (no_call (alt2 (no_lit rfl) (no_lit rfl)))
      (ok_call (alt2 (no_lit rfl) ok_lit)))⟩
  | ex => exact ⟨_, by simp [cQuant, cOne, chk, Pair.rule, Pair.kids], ok_call' (ok_alt1 (ok_call (ok_alt1 ok_lit)))⟩
  | ex' => exact ⟨_, by simp [cQuant, cOne, chk, Pair.rule, Pair.kids], ok_call' (ok_alt1 (ok_call (alt2 (no_lit rfl) ok_lit)))⟩

theorem wq_no {k : AQ} {q : Tx} (h : WQ k q) (rest : Tx) : No (gram U) (.call .let_in) (q ++ rest) ∧
    No (gram U) (.call .if_then_else) (q ++ rest) ∧ No (gram U) (.call .find_such_that) (q ++ rest) ∧ Solid (q ++ rest) := by
  cases h <;> exact ⟨no_call (no_then1 (no_lit rfl)), no_call (no_then1 (no_lit rfl)), no_call (no_then1 (no_lit rfl)),
    ⟨rfl, by simp [hd], by simp [hd], by simp [hd]⟩⟩

theorem wop_ok {k : Op} {q : Tx} (h : WOp k q) (rest : Tx) : ∃ x, cOp dbg x = .ok k ∧
    Ok (gram U) (.call .operation) (q ++ rest) [x] rest := by
  cases h with
  | eq => exact ⟨_, by simp [cOp, cOne, chk, Pair.rule, Pair.kids], ok_call' (ok_alt1 (ok_call ok_lit))⟩
  | neq => exact ⟨_, by simp [cOp, cOne, chk, Pair.rule, Pair.kids], ok_call' (alt2 (no_call (no_lit rfl))
      (ok_alt1 (ok_call (ok_alt1 ok_lit))))⟩
  | neq' => exact ⟨_, by simp [cOp, cOne, chk, Pair.rule, Pair.kids], ok_call' (alt2 (no_call (no_lit rfl))
      (ok_alt1 (ok_call (alt2 (no_lit rfl) ok_lit))))⟩
  | or => exact ⟨_, by simp [cOp, cOne, chk, Pair.rule, Pair.kids], ok_call' (alt2 (no_call (no_lit rfl))
      (alt2 (no_call (alt2 (no_lit rfl) (no_lit rfl))) (ok_alt1 (ok_call ok_lit))))⟩
  | and => exact ⟨_, by simp [cOp, cOne, chk, Pair.rule, Pair.kids], ok_call' (alt2 (no_call (no_lit rfl))
      (alt2 (no_call (alt2 (no_lit rfl) (no_lit rfl))) (alt2 (no_call (no_lit rfl)) (ok_alt1 (ok_call ok_lit)))))⟩
  | implies => exact ⟨_, by simp [cOp, cOne, chk, Pair.rule, Pair.kids], ok_call' (alt2 (no_call (no_lit rfl))
      (alt2 (no_call (alt2 (no_lit rfl) (no_lit rfl))) (alt2 (no_call (no_lit rfl)) (alt2 (no_call (no_lit rfl))
      (ok_alt1 (ok_call ok_lit))))))⟩
  | iff => exact ⟨_, by simp [cOp, cOne, chk, Pair.rule, Pair.kids], ok_call' (alt2 (no_call (no_lit rfl))
      (alt2 (no_call (alt2 (no_lit rfl) (no_lit rfl))) (alt2 (no_call (no_lit rfl)) (alt2 (no_call (no_lit rfl))
      (alt2 (no_call (no_lit rfl)) (ok_call ok_lit))))))⟩

theorem wop_solid {k : Op} {q : Tx} (h : WOp k q) (rest : Tx) : Solid (q ++ rest) ∧ hd (q ++ rest) ≠ '(' ∧
    hd (q ++ rest) ≠ '[' ∧ hd (q ++ rest) ≠ ':' := by
  cases h <;> exact ⟨⟨rfl, by simp [hd], by simp [hd], by simp [hd]⟩, by simp [hd], by simp [hd], by simp [hd]⟩

/-! ### The constructions -/

theorem rd_letin {o o₁ : Bool} {v : Bnd} {t₁ t₂ : Tm} {w₁ b w₂ w₃ s₁ w₄ w₅ s₂ : Tx} (hw₁ : Blank w₁) (hb : WBnd U v b)
    (hw₂ : Blank w₂) (hw₃ : Blank w₃) (h₁ : Rd U dbg o₁ t₁ s₁) (hw₄ : Sep o₁ w₄) (hw₅ : Blank w₅) (h₂ : Rd U dbg o t₂ s₂) :
    Rd U dbg o (.letin v t₁ t₂)
      (c!"let" ++ (w₁ ++ (b ++ (w₂ ++ ('=' :: (w₃ ++ (s₁ ++ (w₄ ++ (c!"in" ++ (w₅ ++ s₂)))))))))) := by
  refine ⟨fun r => solid_kw (U := U) rfl, fun w r f => ?_⟩
  obtain ⟨p₂, v₂, hv₂, ok₂, c₂⟩ := h₂.2 w r f
  have hin : Solid (c!"in" ++ (w₅ ++ (s₂ ++ (w ++ r)))) := solid_kw (U := U) rfl
  obtain ⟨p₁, v₁, hv₁, ok₁, c₁⟩ := h₁.2 w₄ (c!"in" ++ (w₅ ++ (s₂ ++ (w ++ r)))) (Fol.sep hw₄ hin (by simp [hd]))
  have e1 := ok_then (gr := gram U) ok₁ hv₁ hin (ok_lit_then (k := c!"in") hw₅ (h₂.1 _) ok₂)
  have e2 := ok_lit_then (gr := gram U) (k := c!"=") hw₃ (h₁.1 _) e1
  obtain ⟨pb, okb, cb⟩ := bnd_ok (dbg := dbg) hb (rest := w₂ ++ '=' :: (w₃ ++ (s₁ ++ (w₄ ++ (c!"in" ++ (w₅ ++ (s₂ ++ (w ++ r))))))))
    (hd_sym rfl hw₂)
  have e3 := ok_lit_then (gr := gram U) (k := c!"let") hw₁ (solid_bnd hb _) (ok_then okb hw₂
    (solid_cons rfl (by decide) (by decide) (by decide)) e2)
  obtain ⟨x, y, z, hh⟩ := rd_commun (ok_alt1 (ok_call' (r := .let_in) e3))
  refine ⟨_, v₂, hv₂, by simpa using hh, ?_⟩
  simp [cTerm, cLet, c₁, c₂, cb, Out.bind]

theorem rd_ite {o₁ o₂ o₃ : Bool} {c l r : Tm} {w₁ s₁ w₂ w₃ s₂ w₄ w₅ w₆ w₇ s₃ w₈ : Tx} (hw₁ : Blank w₁)
    (h₁ : Rd U dbg o₁ c s₁) (hw₂ : Blank w₂) (hw₃ : Blank w₃) (h₂ : Rd U dbg o₂ l s₂) (hw₄ : Blank w₄) (hw₅ : Blank w₅)
    (hw₆ : Blank w₆) (hw₇ : Blank w₇) (h₃ : Rd U dbg o₃ r s₃) (hw₈ : Blank w₈) :
    Rd U dbg false (.ite c l r)
        (c!"if" ++ (w₁ ++ (s₁ ++ (w₂ ++ ('{' :: (w₃ ++ (s₂ ++ (w₄ ++ ('}' :: (w₅ ++ (c!"else" ++ (w₆ ++
          ('{' :: (w₇ ++ (s₃ ++ (w₈ ++ ['}'])))))))))))))))) := by
  refine ⟨fun r => solid_kw (U := U) rfl, fun w r' f => ?_⟩
  obtain ⟨p₃, c₃, ok₃⟩ := bracketed_ok h₃ hw₇ hw₈ (w ++ r')
  have e1 := ok_lit_then (gr := gram U) (k := c!"else") hw₆ (solid_brace _) ok₃
  obtain ⟨p₂, c₂, ok₂⟩ := bracketed_ok h₂ hw₃ hw₄ (w₅ ++ (c!"else" ++ (w₆ ++ '{' :: (w₇ ++ (s₃ ++ (w₈ ++ '}' :: (w ++ r')))))))
  have e2 := ok_then (gr := gram U) ok₂ hw₅ (solid_kw (U := U) rfl) e1
  obtain ⟨p₁, v₁, hv₁, ok₁, c₁⟩ := h₁.2 w₂ _ (Fol.sym (o := o₁) hw₂ (solid_brace (w₃ ++ (s₂ ++ (w₄ ++ '}' :: (w₅ ++
    (c!"else" ++ (w₆ ++ '{' :: (w₇ ++ (s₃ ++ (w₈ ++ '}' :: (w ++ r'))))))))))) rfl (by decide))
  have e3 := ok_lit_then (gr := gram U) (k := c!"if") hw₁ (h₁.1 _) (ok_then ok₁ hv₁ (solid_brace _) e2)
  obtain ⟨x, y, z, hh⟩ := rd_commun (alt2 (no_call (no_then1 (no_lit rfl))) (ok_alt1 (ok_call' (r := .if_then_else) e3)))
  refine ⟨_, w, f.blank, by simpa using hh, ?_⟩
  simp [cTerm, cIf, c₁, c₂, c₃, Out.bind]

theorem rd_find {o₁ o₂ o₃ : Bool} {v : List Bnd} {c l r : Tm}
    {w₁ w₂ b w₃ w₄ w₅ w₆ s₁ w₇ w₈ w₉ w₁₀ s₂ w₁₁ w₁₂ w₁₃ w₁₄ s₃ w₁₅ : Tx}
    (hw₁ : Blank w₁) (hw₂ : Blank w₂) (hb : WBnds U v b) (hw₃ : Blank w₃) (hw₄ : Blank w₄) (hw₅ : Blank w₅) (hw₆ : Blank w₆)
    (h₁ : Rd U dbg o₁ c s₁) (hw₇ : Blank w₇) (hw₈ : Blank w₈) (hw₉ : Blank w₉) (hw₁₀ : Blank w₁₀) (h₂ : Rd U dbg o₂ l s₂)
    (hw₁₁ : Blank w₁₁) (hw₁₂ : Blank w₁₂) (hw₁₃ : Blank w₁₃) (hw₁₄ : Blank w₁₄) (h₃ : Rd U dbg o₃ r s₃) (hw₁₅ : Blank w₁₅) :
      Rd U dbg false (.find v c l r)
        (c!"try" ++ (w₁ ++ (c!"find" ++ (w₂ ++ (b ++ (w₃ ++ (c!"such" ++ (w₄ ++ (c!"that" ++ (w₅ ++
          ('{' :: (w₆ ++ (s₁ ++ (w₇ ++ ('}' :: (w₈ ++ (c!"then" ++ (w₉ ++ ('{' :: (w₁₀ ++ (s₂ ++ (w₁₁ ++ ('}' :: (w₁₂ ++
          (c!"else" ++ (w₁₃ ++ ('{' :: (w₁₄ ++ (s₃ ++ (w₁₅ ++ ['}'])))))))))))))))))))))))))))))) := by
  refine ⟨fun r => solid_kw (U := U) rfl, fun w r' f => ?_⟩
  obtain ⟨p₃, c₃, ok₃⟩ := bracketed_ok h₃ hw₁₄ hw₁₅ (w ++ r')
  have e1 := ok_lit_then (gr := gram U) (k := c!"else") hw₁₃ (solid_brace _) ok₃
  obtain ⟨p₂, c₂, ok₂⟩ := bracketed_ok h₂ hw₁₀ hw₁₁ (w₁₂ ++ (c!"else" ++ (w₁₃ ++ '{' :: (w₁₄ ++ (s₃ ++ (w₁₅ ++ '}' :: (w ++ r')))))))
  have e2 := ok_lit_then (gr := gram U) (k := c!"then") hw₉ (solid_brace _) (ok_then ok₂ hw₁₂ (solid_kw (U := U) rfl) e1)
  obtain ⟨p₁, c₁, ok₁⟩ := bracketed_ok h₁ hw₆ hw₇ (w₈ ++ (c!"then" ++ (w₉ ++ '{' :: (w₁₀ ++ (s₂ ++ (w₁₁ ++ '}' ::
    (w₁₂ ++ (c!"else" ++ (w₁₃ ++ '{' :: (w₁₄ ++ (s₃ ++ (w₁₅ ++ '}' :: (w ++ r')))))))))))))
  have e3 := ok_lit_then (gr := gram U) (k := c!"that") hw₅ (solid_brace _) (ok_then ok₁ hw₈ (solid_kw (U := U) rfl) e2)
  have e4 := ok_lit_then (gr := gram U) (k := c!"such") hw₄ (solid_kw (U := U) rfl) e3
  obtain ⟨x, cb, e5⟩ := ta_then (dbg := dbg) hw₂ hb hw₃ (ok_lit (s := c!"find")) (solid_kw (U := U) rfl) (by simp [hd]) e4
  have e6 := ok_lit_then (gr := gram U) (k := c!"try") hw₁ (solid_kw (U := U) rfl) e5
  obtain ⟨x', y, z, hh⟩ := rd_commun (alt2 (no_call (no_then1 (no_lit rfl))) (alt2 (no_call (no_then1 (no_lit rfl)))
    (ok_alt1 (ok_call' (r := .find_such_that) e6))))
  refine ⟨_, w, f.blank, by simpa using hh, ?_⟩
  simp [cTerm, cFind, c₁, c₂, c₃, cb, Out.bind]

theorem rd_quant {o : Bool} {k : AQ} {v : List Bnd} {t : Tm} {q w₁ b w₂ w₃ s w₄ : Tx} (hq : WQ k q) (hw₁ : Blank w₁)
    (hb : WBnds U v b) (hw₂ : Blank w₂) (hw₃ : Blank w₃) (h : Rd U dbg o t s) (hw₄ : Blank w₄) :
    Rd U dbg false (.quant k v t) (q ++ (w₁ ++ (b ++ (w₂ ++ ('{' :: (w₃ ++ (s ++ (w₄ ++ ['}'])))))))) := by
  refine ⟨fun r => by rw [List.append_assoc]; exact (wq_no (U := U) hq _).2.2.2, fun w r' f => ?_⟩
  obtain ⟨p, c, ok⟩ := bracketed_ok h hw₃ hw₄ (w ++ r')
  obtain ⟨xq, cq, okq⟩ := wq_ok (U := U) (dbg := dbg) hq (w₁ ++ (b ++ (w₂ ++ '{' :: (w₃ ++ (s ++ (w₄ ++ '}' :: (w ++ r')))))))
  obtain ⟨x, cb, e⟩ := ta_then (dbg := dbg) hw₁ hb hw₂ okq (solid_brace _) (by simp [hd]) ok
  obtain ⟨n1, n2, n3, _⟩ := wq_no (U := U) hq (w₁ ++ (b ++ (w₂ ++ '{' :: (w₃ ++ (s ++ (w₄ ++ '}' :: (w ++ r')))))))
  obtain ⟨x', y, z, hh⟩ := rd_commun (alt2 n1 (alt2 n2 (alt2 n3 (ok_alt1 (ok_call' (r := .quantifier) e)))))
  refine ⟨_, w, f.blank, by simpa using hh, ?_⟩
  simp [cTerm, cQuantifier, c, cq, cb, Out.bind]

/-! ### Infix terms -/

/-- `WInfix` with the terms that are read. -/
inductive SInfix (U : Char → Bool) (dbg : Bool) (op : Op) : Bool → List Tm → Tx → Prop
  | nil (o : Bool) (w : Tx) : Blank w → SInfix U dbg op o [] (w ++ [')'])
  | cons (o o' : Bool) (t : Tm) (l : List Tm) (w q w' s r : Tx) : Sep o w → WOp op q → Blank w' → Rd U dbg o' t s →
      SInfix U dbg op o' l r → SInfix U dbg op o (t :: l) (w ++ (q ++ (w' ++ (s ++ r))))

theorem infix_ok {op : Op} {o : Bool} {l : List Tm} {s : Tx} (h : SInfix U dbg op o l s) (r : Tx) : ∃ w s₀, s = w ++ s₀ ∧
    Fol U o w (s₀ ++ r) ∧
    (∀ v, Blank v → ∃ ps u, Blank u ∧ cInfixRest dbg op ps = .ok l ∧
      Ok (gram U) (.star (.seq skipG (.call .operation ~~ .call .term))) (v ++ (s₀ ++ r)) ps (u ++ ')' :: r)) ∧
    (∃ ps u, Blank u ∧ cInfixRest dbg op ps = .ok l ∧
      Ok (gram U) (many (.call .operation ~~ .call .term)) (s₀ ++ r) ps (u ++ ')' :: r)) ∧
    (l ≠ [] → ∃ opp p ps u t l', l = t :: l' ∧ Blank u ∧ cOp dbg opp = .ok op ∧ cTerm dbg p = .ok t ∧
      cInfixRest dbg op ps = .ok l' ∧
      Ok (gram U) (many1 (.call .operation ~~ .call .term)) (s₀ ++ r) (opp :: p :: ps) (u ++ ')' :: r)) := by
  have hno : No (gram U) (.call .operation ~~ .call .term) (')' :: r) := by
    refine no_then1 (no_call ?_)
    exact alt2 (no_call (no_lit rfl)) (alt2 (no_call (alt2 (no_lit rfl) (no_lit rfl))) (alt2 (no_call (no_lit rfl))
      (alt2 (no_call (no_lit rfl)) (alt2 (no_call (no_lit rfl)) (no_call (no_lit rfl))))))
  have hcl : Solid (')' :: r) := solid_cons rfl (by decide) (by decide) (by decide)
  induction h with
  | nil o w hw =>
    refine ⟨w, [')'], rfl, Fol.sym hw hcl rfl (by decide), fun v hv => ?_, ?_, fun h => absurd rfl h⟩
    · exact ⟨[], v, hv, by simp [cInfixRest], ok_star0 (no_seq2 (skip_ok hv hcl) hno)⟩
    · exact ⟨[], [], .nil, by simp [cInfixRest], ok_opt0 (no_seq1 hno)⟩
  | cons o o' t l w q w' s r' hw hq hw' ht _ ih =>
    obtain ⟨w₂, s₂, rfl, f₂, star₂, many₂, -⟩ := ih
    obtain ⟨hs, hb⟩ := wop_solid hq (w' ++ (s ++ (w₂ ++ s₂)) ++ r)
    obtain ⟨opp, co, oko⟩ := wop_ok (U := U) (dbg := dbg) hq (w' ++ (s ++ (w₂ ++ s₂)) ++ r)
    obtain ⟨p, v', hv', okp, cp⟩ := ht.2 w₂ (s₂ ++ r) f₂
    have ok1 : Ok (gram U) (.call .operation ~~ .call .term) (q ++ (w' ++ (s ++ (w₂ ++ s₂))) ++ r) [opp, p] (v' ++ (s₂ ++ r)) := by
      have := ok_then (gr := gram U) (w := w') (t' := s ++ (w₂ ++ (s₂ ++ r))) (by simpa using oko) hw' (ht.1 _) okp
      simpa using this
    have hs' : Solid (q ++ (w' ++ (s ++ (w₂ ++ s₂))) ++ r) := by simpa using hs
    refine ⟨w, q ++ (w' ++ (s ++ (w₂ ++ s₂))), rfl, Fol.sep hw hs' (by simpa using hb), fun v hv => ?_, ?_, fun _ => ?_⟩
    · obtain ⟨ps, u, hu, hps, hok⟩ := star₂ v' hv'
      refine ⟨opp :: p :: ps, u, hu, by simp [cInfixRest, co, cp, hps, Out.bind], ?_⟩
      exact ok_star1 (ok_seq (p := []) (skip_ok hv hs') ok1) hok
    · obtain ⟨ps, u, hu, hps, hok⟩ := star₂ v' hv'
      exact ⟨opp :: p :: ps, u, hu, by simp [cInfixRest, co, cp, hps, Out.bind], ok_opt1 (ok_seq ok1 hok)⟩
    · obtain ⟨ps, u, hu, hps, hok⟩ := many₂
      exact ⟨opp, p, ps, u, t, l, rfl, hu, co, cp, hps, ok_then ok1 hv' f₂.solid hok⟩

theorem rd_infx {op : Op} {o : Bool} {t : Tm} {l : List Tm} {w₁ s₁ s : Tx} (hw₁ : Blank w₁) (h : Rd U dbg o t s₁) (hl : l ≠ [])
    (hi : SInfix U dbg op o l s) : Rd U dbg false (.infx op (t :: l)) ('(' :: (w₁ ++ (s₁ ++ s))) := by
  refine ⟨fun r => by simpa using solid_open hw₁ (h.1 (s ++ r)), fun w r f => ?_⟩
  obtain ⟨w₂, s₂, rfl, f₂, -, -, hm⟩ := infix_ok hi (w ++ r)
  obtain ⟨opp, p, ps, u, t', l', rfl, hu, co, cp, cps, ok⟩ := hm hl
  obtain ⟨p₁, v₁, hv₁, ok₁, c₁⟩ := h.2 w₂ (s₂ ++ (w ++ r)) f₂
  have e := ok_lit_then (gr := gram U) (k := c!"(") hw₁ (h.1 _) (ok_then ok₁ hv₁ f₂.solid (ok_then ok hu
    (solid_cons rfl (by decide) (by decide) (by decide)) (ok_lit (s := c!")") (t := w ++ r))))
  have hnc : ∀ T : Tx, No (gram U) (.call .commun_base) ('(' :: T) := by
    intro T
    refine no_call ?_
    refine alt2 (no_call (no_then1 (no_lit rfl))) (alt2 (no_call (no_then1 (no_lit rfl))) (alt2 (no_call (no_then1 (no_lit rfl))) ?_))
    refine alt2 (no_call (no_then1 (no_call (alt2 (no_call (alt2 (no_lit rfl) (no_lit rfl)))
      (no_call (alt2 (no_lit rfl) (no_lit rfl))))))) ?_
    exact alt2 (no_call (no_then1 (no_call (no_seq1 (no_ident rfl))))) (no_call (no_then1 (alt2 (no_name rfl rfl)
      (no_var rfl (by simp [hd])))))
  have e' := ok_call' (r := .term) (ok_call' (r := .inner_term) (alt2 (hnc _) (ok_call' (r := .infix_term) e)))
  refine ⟨_, w, f.blank, by simpa using e', ?_⟩
  simp [cTerm, cInfix, c₁, co, cp, cps, Out.bind]

/-! ### Macros -/

theorem macro_name_ok {m rest : Tx} (h : IdTx U m) : Ok (gram U) (.call .macro_name) (m ++ '!' :: rest)
    [.node .macro_name (m ++ ['!']) [.node .ident m []]] rest := by
  have := ok_call (gr := gram U) (r := .macro_name) (s := m ++ ['!']) (t' := rest) (p := [.node .ident m []])
    (by
      have := ok_seq (gr := gram U) (ident_ok (rest := '!' :: rest) h rfl) (ok_lit (s := c!"!") (t := rest))
      rw [List.append_assoc]
      exact this)
  simpa using this

theorem mac_front {m rest : Tx} (h : Plain U m) : No (gram U) (.call .let_in) (m ++ '!' :: rest) ∧
    No (gram U) (.call .if_then_else) (m ++ '!' :: rest) ∧ No (gram U) (.call .find_such_that) (m ++ '!' :: rest) ∧
    No (gram U) (.call .quantifier) (m ++ '!' :: rest) := by
  have := plain_front (w := []) (s := '!' :: rest) h rfl .nil (solid_cons rfl (by decide) (by decide) (by decide)) (by simp [hd])
  simpa using this

theorem rd_mac_of {o : Bool} {m s : Tx} {t : Tm} (h : Plain U m) (hs : ∀ w r, Fol U o w r → ∃ ps v, Blank v ∧
    Ok (gram U) (gram U .macro_application) (m ++ '!' :: (s ++ (w ++ r))) (.node .macro_name (m ++ ['!']) [.node .ident m []] :: ps)
      (v ++ r) ∧ cMacro dbg (.node .macro_name (m ++ ['!']) [.node .ident m []] :: ps) = .ok t) :
    Rd U dbg o t (m ++ '!' :: s) := by
  refine ⟨fun r => by rw [List.append_assoc]; exact solid_id h.id, fun w r f => ?_⟩
  obtain ⟨ps, v, hv, hok, hc⟩ := hs w r f
  obtain ⟨n1, n2, n3, n4⟩ := mac_front (rest := s ++ (w ++ r)) h
  obtain ⟨x, y, z, hh⟩ := rd_commun (alt2 n1 (alt2 n2 (alt2 n3 (alt2 n4 (ok_alt1 (ok_call' (r := .macro_application) hok))))))
  refine ⟨_, v, hv, by simpa using hh, ?_⟩
  simp only [cTerm]
  simp [hc]

theorem mkind_other {m : String} (h1 : m.toList ≠ c!"msg") (h2 : m.toList ≠ c!"cond") : mkind (String.ofList m.toList) = .other := by
  rw [String.ofList_toList, mkind, if_neg h1, if_neg h2]

theorem rd_mac0 {m : String} (h : Plain U m.toList) (h1 : m.toList ≠ c!"msg") (h2 : m.toList ≠ c!"cond") :
    Rd U dbg true (.mac m []) (m.toList ++ ['!']) := by
  refine rd_mac_of h fun w r f => ⟨[], [], .nil, ?_, ?_⟩
  · exact ok_then (gr := gram U) (macro_name_ok (rest := w ++ r) h.id) f.blank f.solid (ok_opt0 (no_inner (f.br rfl).1 (f.br rfl).2.1))
  · rw [cMacro, cName_ok]
    simp only [Out.bind]
    rw [mkind_other h1 h2]
    simp [cTerms, Out.bind]

theorem rd_mac {m : String} (h : Plain U m.toList) (h1 : m.toList ≠ c!"msg") (h2 : m.toList ≠ c!"cond") {o c : Char} {l : List Tm}
    {w w' s : Tx} (hb : Br o c) (hw : Blank w) (hw' : Blank w') (I : Items (fun a t => ∃ o, Rd U dbg o a t) l s) :
    Rd U dbg false (.mac m l) (m.toList ++ ('!' :: (w ++ (o :: (w' ++ (s ++ [c])))))) := by
  refine rd_mac_of h fun w₁ r f => ?_
  obtain ⟨hs, ps, hps, hc⟩ := inner_ok I hb hw' (w₁ ++ r)
  refine ⟨ps, w₁, f.blank, ?_, ?_⟩
  · have := ok_then (gr := gram U) (macro_name_ok (rest := w ++ (o :: (w' ++ (s ++ c :: (w₁ ++ r))))) h.id) hw hs (ok_opt1 hps)
    simp only [List.append_assoc, List.cons_append, List.nil_append]
    exact this
  · rw [cMacro, cName_ok]
    simp only [Out.bind]
    rw [mkind_other h1 h2]
    simp [cTerms_ok hc, Out.bind]

/-- The pair of a term that is an application. -/
def IsAppl (dbg : Bool) (p : Pair) (a : Appl) : Prop := ∃ x y z u ks, cAppl dbg ks = .ok a ∧
  p = .node .term x [.node .inner_term y [.node .commun_base z [.node .application u ks]]]

theorem elem_appl {cl : Char} (hcl : cl = ')' ∨ cl = ']') :
    Elem (gram U) (.call .term) cl (fun a t => ∃ o, RdAppl U dbg o a t) (IsAppl dbg) := by
  refine ⟨fun a t s ⟨o, h⟩ => h.1 s, ?_, ?_⟩
  · rintro a t w s c ⟨o, h⟩ hw hc
    obtain ⟨x, ks, v, hv, hok, hcv, n1, n2, n3, n4, n5⟩ := h.2 w (c :: s) (by
      rcases hc with rfl | rfl
      · exact Fol.sym hw (solid_cons rfl (by decide) (by decide) (by decide)) rfl (by decide)
      · rcases hcl with rfl | rfl <;>
        exact Fol.sym hw (solid_cons rfl (by decide) (by decide) (by decide)) rfl (by decide))
    obtain ⟨x', y, z, hh⟩ := rd_commun (alt2 n1 (alt2 n2 (alt2 n3 (alt2 n4 (alt2 n5 hok)))))
    exact ⟨_, v, hv, hh, _, _, _, _, _, hcv, rfl⟩
  · intro s
    rcases hcl with rfl | rfl <;> exact no_term_sym rfl (by decide) (by decide) (by decide) (by decide)

theorem rd_step_macro {k : MKind} {m : Tx} (hm : Plain U m) (hk : mkind (String.ofList m) = k) (hn : k ≠ .other)
    {o : Bool} {bo bc : Char} {a : Appl} {w w₁ s w₂ : Tx} (hb : Br bo bc) (hw : Blank w) (hw₁ : Blank w₁)
    (h : RdAppl U dbg o a s) (hw₂ : Blank w₂) :
    Rd U dbg false (a.toTm (match (generalizing := false) k with | .msg => Tm.msg | _ => Tm.cond))
      (m ++ ('!' :: (w ++ (bo :: (w₁ ++ (s ++ (w₂ ++ [bc]))))))) := by
  refine rd_mac_of hm fun w₃ r f => ?_
  have I : Items (fun a t => ∃ o, RdAppl U dbg o a t) [a] (s ++ w₂) := .one a s w₂ ⟨o, h⟩ hw₂
  obtain ⟨hs, ps, hps, hc⟩ := inner_gen (fun h => elem_appl h) I hb hw₁ (w₃ ++ r)
  refine ⟨ps, w₃, f.blank, ?_, ?_⟩
  · have := ok_then (gr := gram U) (macro_name_ok (rest := w ++ (bo :: (w₁ ++ (s ++ w₂ ++ bc :: (w₃ ++ r))))) hm.id) hw hs
      (ok_opt1 hps)
    simp only [List.append_assoc, List.cons_append, List.nil_append] at this ⊢
    exact this
  · cases hc with
    | cons hc hnil =>
      cases hnil
      obtain ⟨x, y, z, u, ks, hks, rfl⟩ := hc
      rw [cMacro, cName_ok]
      simp only [Out.bind]
      rw [hk]
      cases k with
      | other => exact absurd rfl hn
      | msg => simp [hks, Out.bind]
      | cond => simp [hks, Out.bind]

theorem plain_msg : Plain U c!"msg" :=
  ⟨⟨'m', c!"sg", rfl, rfl, List.all_eq_true.1 rfl⟩, rfl, by simp, rfl, by simp, by simp, by simp⟩
theorem plain_cond : Plain U c!"cond" :=
  ⟨⟨'c', c!"ond", rfl, rfl, List.all_eq_true.1 rfl⟩, rfl, by simp, rfl, by simp, by simp, by simp⟩

/-! ### All terms -/

mutual
theorem rdA {o : Bool} {a : Appl} {s : Tx} : WAppl U o a s → RdAppl U dbg o a s
  | .const x h => rd_const h
  | .const0 x o c w w' h hb hw hw' => rd_const0 h hb hw hw'
  | .app f o c a l w w' s h hb hw hw' hl => rd_app h (rdL hl) hb hw hw'
theorem rdT {o : Bool} {t : Tm} {s : Tx} : WTm U o t s → Rd U dbg o t s
  | .appl o a s h => rd_appl (rdA h)
  | .letin _ _ _ _ _ _ _ _ _ _ _ _ _ hw₁ hb hw₂ hw₃ h₁ hw₄ hw₅ h₂ => rd_letin hw₁ hb hw₂ hw₃ (rdT h₁) hw₄ hw₅ (rdT h₂)
  | .ite _ _ _ _ _ _ _ _ _ _ _ _ _ _ _ _ _ hw₁ h₁ hw₂ hw₃ h₂ hw₄ hw₅ hw₆ hw₇ h₃ hw₈ =>
    rd_ite hw₁ (rdT h₁) hw₂ hw₃ (rdT h₂) hw₄ hw₅ hw₆ hw₇ (rdT h₃) hw₈
  | .find _ _ _ _ _ _ _ _ _ _ _ _ _ _ _ _ _ _ _ _ _ _ _ _ _ _ hw₁ hw₂ hb hw₃ hw₄ hw₅ hw₆ h₁ hw₇ hw₈ hw₉ hw₁₀ h₂ hw₁₁ hw₁₂
      hw₁₃ hw₁₄ h₃ hw₁₅ =>
    rd_find hw₁ hw₂ hb hw₃ hw₄ hw₅ hw₆ (rdT h₁) hw₇ hw₈ hw₉ hw₁₀ (rdT h₂) hw₁₁ hw₁₂ hw₁₃ hw₁₄ (rdT h₃) hw₁₅
  | .quant _ _ _ _ _ _ _ _ _ _ _ hq hw₁ hb hw₂ hw₃ h hw₄ => rd_quant hq hw₁ hb hw₂ hw₃ (rdT h) hw₄
  | .infx _ _ _ _ _ _ _ hw₁ h hl hi => rd_infx hw₁ (rdT h) hl (rdI hi)
  | .mac0 m h h1 h2 => rd_mac0 h h1 h2
  | .mac m o c l w w' s h h1 h2 hb hw hw' hl => rd_mac h h1 h2 hb hw hw' (rdL hl)
  | .msg o bo bc a w w₁ s w₂ hb hw hw₁ h hw₂ =>
    rd_step_macro (k := .msg) plain_msg (by simp [mkind]) (by simp) hb hw hw₁ (rdA h) hw₂
  | .cond o bo bc a w w₁ s w₂ hb hw hw₁ h hw₂ =>
    rd_step_macro (k := .cond) plain_cond (by simp [mkind]) (by simp) hb hw hw₁ (rdA h) hw₂
theorem rdI {op : Op} {o : Bool} {l : List Tm} {s : Tx} : WInfix U op o l s → SInfix U dbg op o l s
  | .nil _ o w hw => .nil o w hw
  | .cons _ o o' t l w q w' s r hw hq hw' h hi => .cons o o' t l w q w' s r hw hq hw' (rdT h) (rdI hi)
theorem rdL {l : List Tm} {s : Tx} : WArgs U l s → Items (fun a t => ∃ o, Rd U dbg o a t) l s
  | .nil => .nil
  | .one o a t w h hw => .one a t w ⟨o, rdT h⟩ hw
  | .cons o a l t w w' s h hw hw' hl => .cons a l t w w' s ⟨o, rdT h⟩ hw hw' (rdL hl)
end

end
end Txt2
end CV
