import Verif.ParserInv
/-
Property C34: sort placeholders and unification of signatures. Models formula/function/signature/mod.rs:54-92 on top of
the placeholders of Parser.lean (formula/sort/sort_proxy.rs). Paths are relative to /repo/crates/cryptovampire/src.
-/
set_option linter.unusedSimpArgs false
namespace CV
namespace Prs

/-- Models the argument loop of `Signature::unify` (signature/mod.rs:54-90) on finite signatures: `zip_longest` with
`try_fold`; a missing argument stops at once, an extra one is reported at the end. -/
def unifyArgs (r : Realm) : Store → List Px → List Px → Option Store
  | st, [], [] => some st
  | st, p :: ps, q :: qs => (p.unify st r q).bind fun u => unifyArgs r u.2 ps qs
  | _, _ :: _, [] => none
  | _, [], _ :: _ => none

/-- Models `Signature::unify` (signature/mod.rs:54-92): outputs first, then arguments. -/
def sigUnify (r : Realm) (st : Store) (out : Px) (args : List Px) (out' : Px) (args' : List Px) : Option Store :=
  (out.unify st r out').bind fun u => unifyArgs r u.2 args args'

/-! ## The relation on sorts -/

theorem eqRealm_refl (r : Realm) (s : Srt) : eqRealm r s s = true := by simp [eqRealm]

theorem eqRealm_sym_iff (a b : Srt) : eqRealm .sym a b = true ↔ a = b := by simp [eqRealm]

theorem eqRealm_comm (r : Realm) (a b : Srt) : eqRealm r a b = eqRealm r b a := by
  cases r <;> cases a <;> cases b <;> first | rfl | simp [eqRealm, isEvaluatable, evaluated, Bool.beq_comm, eq_comm]

/-- The value carried by terms of a sort in the evaluated realm. -/
def evSort : Srt → Srt
  | .message => .bitstring
  | .condition => .bool
  | s => s

theorem eqRealm_ev_iff (a b : Srt) : eqRealm .ev a b = true ↔ evSort a = evSort b := by
  cases a <;> cases b <;> simp [eqRealm, isEvaluatable, evaluated, evSort]

theorem eqRealm_trans {r : Realm} {a b c : Srt} (h : eqRealm r a b = true) (k : eqRealm r b c = true) : eqRealm r a c = true := by
  cases r
  · rw [eqRealm_sym_iff] at *; exact h.trans k
  · rw [eqRealm_ev_iff] at *; exact h.trans k

/-- **C34 (agreement of sorts).** In the symbolic realm sorts agree only when equal; in the evaluated one, `Message` and
`Bitstring` agree, and `Condition` and `Bool`, and nothing else. -/
theorem C34_agree (a b : Srt) : (eqRealm .sym a b = true ↔ a = b) ∧ (eqRealm .ev a b = true ↔ evSort a = evSort b) :=
  ⟨eqRealm_sym_iff a b, eqRealm_ev_iff a b⟩

/-! ## Placeholders -/

theorem Px.get_mono {a b : Store} (h : SLe a b) {p : Px} {s : Srt} (e : p.get a = some s) : p.get b = some s := by
  cases p with
  | stat => exact e
  | var n => exact h.2 n s e

theorem Px.get_set {st st' : Store} {p : Px} {s : Srt} (h : p.set st s = some st') : p.get st' = some s := by
  cases p with
  | stat => cases h
  | var n =>
    simp only [Px.set] at h
    split at h
    case isFalse => cases h
    case isTrue hn => cases h; simp [Px.get, hn.1]

/-- A placeholder that exists. -/
def Px.Valid (st : Store) : Px → Prop
  | .stat _ => True
  | .var n => n < st.length

theorem Px.set_some {st : Store} {p : Px} {s : Srt} (hv : p.Valid st) (h : p.get st = none) : ∃ st', p.set st s = some st' := by
  cases p with
  | stat => cases h
  | var n => exact ⟨_, by simp only [Px.set]; rw [if_pos ⟨hv, h⟩]⟩

/-- **C34 (unifying two placeholders).** Unification succeeds exactly when at least one of the two sorts is known and
they agree if both are; then both are known, they agree, and the sort reported is that of the first. -/
theorem C34_unify (r : Realm) (st : Store) (p q : Px) (hp : p.Valid st) (hq : q.Valid st) :
    ((∃ u, p.unify st r q = some u) ↔
      ((p.get st).isSome ∨ (q.get st).isSome) ∧ ∀ a b, p.get st = some a → q.get st = some b → eqRealm r a b = true) ∧
    (∀ s st', p.unify st r q = some (s, st') → p.get st' = some s ∧ ∃ b, q.get st' = some b ∧ eqRealm r s b = true) := by
  constructor
  · simp only [Px.unify]
    cases hpg : p.get st with
    | none =>
      cases hqg : q.get st with
      | none => simp
      | some b =>
        obtain ⟨st', h⟩ := Px.set_some (s := b) hp hpg
        simp [h]
    | some a =>
      cases hqg : q.get st with
      | none =>
        obtain ⟨st', h⟩ := Px.set_some (s := a) hq hqg
        simp [h]
      | some b => by_cases h : eqRealm r a b = true <;> simp [h]
  · intro s st' h
    have hle := Px.unify_le h
    simp only [Px.unify] at h
    split at h
    · rename_i a b ha hb
      split at h
      · rename_i hab; cases h; exact ⟨ha, b, hb, hab⟩
      · cases h
    · rename_i b ha hb
      obtain ⟨st1, h1, h2⟩ := Option.map_eq_some_iff.1 h
      cases h2
      exact ⟨Px.get_set h1, _, Px.get_mono (Px.set_le h1) hb, eqRealm_refl _ _⟩
    · rename_i a ha hb
      obtain ⟨st1, h1, h2⟩ := Option.map_eq_some_iff.1 h
      cases h2
      exact ⟨Px.get_mono (Px.set_le h1) ha, _, Px.get_set h1, eqRealm_refl _ _⟩
    · cases h

/-- **C34 (once determined, never changed).** Through any successful elaboration, of any term in any state, a sort
placeholder that has a sort keeps it. -/
theorem C34_never_changes (E : Env) (hE : E.NoTaq) (n : Nat) (r : Realm) (es : Px) (t : Tm) (st st' : St) (φ : Fm PF)
    (h : parse E n r es t st = .ok (φ, st')) (p : Px) (s : Srt) (hp : p.get st.store = some s) : p.get st'.store = some s :=
  Px.get_mono (parse_inv E hE n r es t st φ st' h).store hp

theorem unifyArgs_le {r : Realm} : ∀ (ps qs : List Px) (st st' : Store), unifyArgs r st ps qs = some st' → SLe st st'
  | [], [], st, st', h => by cases h; exact .refl _
  | p :: ps, q :: qs, st, st', h => by
    obtain ⟨u, hu, h⟩ := Option.bind_eq_some_iff.1 h
    exact (Px.unify_le hu).trans (unifyArgs_le ps qs _ _ h)
  | _ :: _, [], _, _, h => by cases h
  | [], _ :: _, _, _, h => by cases h

theorem Px.Valid.mono {a b : Store} (h : SLe a b) {p : Px} (k : p.Valid a) : p.Valid b := by
  cases p
  · trivial
  · exact Nat.lt_of_lt_of_le k h.1

/-- Two known sorts that agree. -/
def Matched (r : Realm) (st : Store) (p q : Px) : Prop := ∃ a b, p.get st = some a ∧ q.get st = some b ∧ eqRealm r a b = true

theorem Matched.mono {r : Realm} {a b : Store} (h : SLe a b) {p q : Px} : Matched r a p q → Matched r b p q
  | ⟨x, y, h1, h2, h3⟩ => ⟨x, y, Px.get_mono h h1, Px.get_mono h h2, h3⟩

theorem unify_matched {r : Realm} {st : Store} {p q : Px} {u : Srt × Store} (h : p.unify st r q = some u) : Matched r u.2 p q := by
  have key : ∀ p : Px, p.get st = none ∨ ∃ a, p.get st = some a := fun p => by cases p.get st <;> simp
  simp only [Px.unify] at h
  split at h
  · rename_i a b ha hb
    split at h
    · rename_i hab; cases h; exact ⟨a, b, ha, hb, hab⟩
    · cases h
  · rename_i b ha hb
    obtain ⟨st1, h1, h2⟩ := Option.map_eq_some_iff.1 h
    cases h2
    exact ⟨_, _, Px.get_set h1, Px.get_mono (Px.set_le h1) hb, eqRealm_refl _ _⟩
  · rename_i a ha hb
    obtain ⟨st1, h1, h2⟩ := Option.map_eq_some_iff.1 h
    cases h2
    exact ⟨_, _, Px.get_mono (Px.set_le h1) ha, Px.get_set h1, eqRealm_refl _ _⟩
  · cases h

theorem unifyArgs_sound {r : Realm} : ∀ (ps qs : List Px) (st st' : Store), unifyArgs r st ps qs = some st' →
    ps.length = qs.length ∧ ∀ z ∈ ps.zip qs, Matched r st' z.1 z.2
  | [], [], st, st', h => ⟨rfl, fun z hz => by cases hz⟩
  | p :: ps, q :: qs, st, st', h => by
    obtain ⟨u, hu, h⟩ := Option.bind_eq_some_iff.1 h
    obtain ⟨h1, h2⟩ := unifyArgs_sound ps qs _ _ h
    refine ⟨by simp [h1], fun z hz => ?_⟩
    simp only [List.zip_cons_cons, List.mem_cons] at hz
    rcases hz with rfl | hz
    · exact (unify_matched hu).mono (unifyArgs_le _ _ _ _ h)
    · exact h2 z hz
  | _ :: _, [], _, _, h => by cases h
  | [], _ :: _, _, _, h => by cases h

/-- **C34 (signatures, soundness).** If two signatures unify, they have the same number of arguments, and afterwards
every argument sort and the output sort of both are known and agree. -/
theorem C34_sig_sound (r : Realm) (st st' : Store) (out out' : Px) (args args' : List Px)
    (h : sigUnify r st out args out' args' = some st') :
    args.length = args'.length ∧ Matched r st' out out' ∧ ∀ z ∈ args.zip args', Matched r st' z.1 z.2 := by
  obtain ⟨u, hu, h⟩ := Option.bind_eq_some_iff.1 h
  obtain ⟨h1, h2⟩ := unifyArgs_sound _ _ _ _ h
  exact ⟨h1, (unify_matched hu).mono (unifyArgs_le _ _ _ _ h), h2⟩

/-- The sort of a placeholder under an assignment of sorts to cells. -/
def Px.val (σ : Nat → Srt) : Px → Srt
  | .stat s => s
  | .var n => σ n

/-- The assignment agrees with the cells already determined. -/
def Fits (r : Realm) (σ : Nat → Srt) (st : Store) : Prop := ∀ p s, Px.get st p = some s → eqRealm r s (p.val σ) = true

theorem Fits.set {r : Realm} {σ : Nat → Srt} {st st' : Store} (h : Fits r σ st) {p : Px} {s : Srt} (hs : p.set st s = some st')
    (k : eqRealm r s (p.val σ) = true) : Fits r σ st' := by
  intro q x hq
  cases p with
  | stat => cases hs
  | var n =>
    simp only [Px.set] at hs
    split at hs
    case isFalse => cases hs
    case isTrue hn =>
      cases hs
      cases q with
      | stat y => cases hq; exact eqRealm_refl _ _
      | var m =>
        by_cases hm : n = m
        · subst hm
          simp [Px.get, hn.1] at hq
          subst hq; exact k
        · apply h (.var m) x
          simp only [Px.get] at hq ⊢
          rwa [List.getElem?_set_ne hm] at hq

theorem unify_complete {r : Realm} {σ : Nat → Srt} {st : Store} (h : Fits r σ st) {p q : Px} (hp : p.Valid st) {b : Srt}
    (hb : q.get st = some b) (k : eqRealm r (p.val σ) (q.val σ) = true) : ∃ u, p.unify st r q = some u ∧ Fits r σ u.2 := by
  have hqb := h q b hb
  have hpb : eqRealm r b (p.val σ) = true := eqRealm_trans hqb (by rw [eqRealm_comm]; exact k)
  simp only [Px.unify, hb]
  cases hpg : p.get st with
  | none =>
    obtain ⟨st', h1⟩ := Px.set_some (s := b) hp hpg
    exact ⟨(b, st'), by simp [h1], h.set h1 hpb⟩
  | some a =>
    refine ⟨(a, st), ?_, h⟩
    simp only
    rw [if_pos]
    exact eqRealm_trans (h p a hpg) (by rw [eqRealm_comm]; exact hpb)

theorem unifyArgs_complete {r : Realm} {σ : Nat → Srt} : ∀ (ps qs : List Px) (st : Store), Fits r σ st → ps.length = qs.length →
    (∀ p ∈ ps, p.Valid st) → (∀ q ∈ qs, (q.get st).isSome) → (∀ z ∈ ps.zip qs, eqRealm r (z.1.val σ) (z.2.val σ) = true) →
    ∃ st', unifyArgs r st ps qs = some st'
  | [], [], st, _, _, _, _, _ => ⟨st, rfl⟩
  | p :: ps, q :: qs, st, h, hl, hp, hq, hz => by
    obtain ⟨b, hb⟩ := Option.isSome_iff_exists.1 (hq q (by simp))
    obtain ⟨u, hu, hf⟩ := unify_complete h (hp p (by simp)) hb (hz (p, q) (by simp))
    have hle := Px.unify_le hu
    obtain ⟨st', h'⟩ := unifyArgs_complete ps qs u.2 hf (by simpa using hl) (fun p' h => (hp p' (by simp [h])).mono hle)
      (fun q' h => by
        obtain ⟨c, hc⟩ := Option.isSome_iff_exists.1 (hq q' (by simp [h]))
        rw [Px.get_mono hle hc]; rfl)
      (fun z h => hz z (by simp [h]))
    exact ⟨st', by simp [unifyArgs, hu, h']⟩
  | [], _ :: _, _, _, hl, _, _, _ => by cases hl
  | _ :: _, [], _, _, hl, _, _, _ => by cases hl

/-- **C34 (signatures, completeness).** A signature, possibly polymorphic, unifies with known actual sorts whenever it
has an instance that agrees with them. -/
theorem C34_sig_complete (r : Realm) (st : Store) (σ : Nat → Srt) (out out' : Px) (args args' : List Px) (hσ : Fits r σ st)
    (hv : ∀ p ∈ out :: args, p.Valid st) (hk : ∀ q ∈ out' :: args', (q.get st).isSome) (hl : args.length = args'.length)
    (ho : eqRealm r (out.val σ) (out'.val σ) = true)
    (ha : ∀ z ∈ args.zip args', eqRealm r (z.1.val σ) (z.2.val σ) = true) :
    ∃ st', sigUnify r st out args out' args' = some st' := by
  obtain ⟨b, hb⟩ := Option.isSome_iff_exists.1 (hk out' (by simp))
  obtain ⟨u, hu, hf⟩ := unify_complete hσ (hv out (by simp)) hb ho
  have hle := Px.unify_le hu
  obtain ⟨st', h'⟩ := unifyArgs_complete args args' u.2 hf hl (fun p' h => (hv p' (by simp [h])).mono hle)
    (fun q' h => by
      obtain ⟨c, hc⟩ := Option.isSome_iff_exists.1 (hk q' (by simp [h]))
      rw [Px.get_mono hle hc]; rfl) ha
  exact ⟨st', by simp [sigUnify, hu, h']⟩

/-- For two declared (monomorphic) signatures: they unify exactly when they have as many arguments and all sorts agree. -/
theorem C34_sig_declared (r : Realm) (st : Store) (out out' : Srt) (args args' : List Srt) :
    (∃ st', sigUnify r st (.stat out) (args.map .stat) (.stat out') (args'.map .stat) = some st') ↔
      args.length = args'.length ∧ eqRealm r out out' = true ∧ ∀ z ∈ args.zip args', eqRealm r z.1 z.2 = true := by
  constructor
  · rintro ⟨st', h⟩
    obtain ⟨h1, ⟨_, _, e1, e2, h2⟩, h3⟩ := C34_sig_sound _ _ _ _ _ _ _ h
    cases e1; cases e2
    refine ⟨by simpa using h1, h2, fun z hz => ?_⟩
    obtain ⟨_, _, e1, e2, h4⟩ := h3 (.stat z.1, .stat z.2) (by
      rw [List.zip_map]; exact List.mem_map.2 ⟨z, hz, rfl⟩)
    cases e1; cases e2; exact h4
  · rintro ⟨h1, h2, h3⟩
    refine C34_sig_complete r st (fun n => ((st[n]?).join).getD .bool) _ _ _ _ ?_ ?_ ?_ (by simpa using h1) h2 ?_
    · intro p s hp
      cases p with
      | stat => cases hp; exact eqRealm_refl _ _
      | var n => simp only [Px.get] at hp; simp [Px.val, hp, eqRealm_refl]
    · intro p hp
      simp only [List.mem_cons, List.mem_map] at hp
      rcases hp with rfl | ⟨_, _, rfl⟩ <;> trivial
    · intro p hp
      simp only [List.mem_cons, List.mem_map] at hp
      rcases hp with rfl | ⟨_, _, rfl⟩ <;> rfl
    · intro z hz
      rw [List.zip_map] at hz
      obtain ⟨w, hw, rfl⟩ := List.mem_map.1 hz
      exact h3 w hw

/-- The signature of `ite`, `(Bool, _1, _1) → _1`, against `(Condition, Message, Bitstring) → Bitstring` in the evaluated realm:
the cell is determined once, by the output. -/
example : sigUnify .ev [none] (.var 0) [.stat .bool, .var 0, .var 0] (.stat .bitstring)
    [.stat .condition, .stat .message, .stat .bitstring] = some [some .bitstring] := by decide

example : sigUnify .sym [none] (.var 0) [.stat .bool, .var 0, .var 0] (.stat .bitstring)
    [.stat .condition, .stat .message, .stat .bitstring] = none := by decide

example : (Px.var 0).get [some .index] = some .index ∧ exE.NoTaq := by
  refine ⟨rfl, ?_⟩
  intro f i h m
  simp only [exE] at h
  repeat (first | cases h; done | (split at h; (cases h; simp)))

end Prs
end CV
