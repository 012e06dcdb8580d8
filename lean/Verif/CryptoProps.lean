import Verif.Crypto
import Verif.EvaluateProps
import Verif.SearchMain
import Verif.IteratorProps
import Verif.SubstProps
set_option linter.unusedSimpArgs false
/-
C61: the axioms generated for the instances of unforgeability are true.
-/
namespace CV
namespace Cry
open Dep SmtM Ev Fm
variable {F D : Type}

/-! ## Specification -/

/-- SPECIFICATION. No call of `exec` is written in the term. -/
def NoExec (L : Lang F) (t : Fm F) : Prop := ∀ g, HasSym g t → L.kind g ≠ .mac .exec

/-- SPECIFICATION. A key that never occurs, but as a key, in the candidate and in the protocol. -/
def Secret (L : Lang F) (steps : List (GStep F)) (cells : List (GCell F)) (M : Str F D) (keyPart : Fm F → Fm F → Prop)
    (starts : List (Clo F D)) (key : D) : Prop :=
  ∀ x, x ∈ starts ∨ IsContent steps cells M x → ∀ f args κ, L.out f = some .name →
    Occurs L steps M keyPart (fun _ => True) x (.app f args, κ) → Fm.eval M κ (.app f args) ≠ key

/-- SPECIFICATION. Unforgeability, as an ideal property of a structure. Whatever signature `s`, message `m` and key
`k` are built (over variables of the sorts `gr`, which range over finitely described values such as indices and
time points): if the signature is accepted and the key is secret, then the message is the same as some message
`d` whose tag under the key occurs in `m` or `s`. -/
def Unforgeable (L : Lang F) (steps : List (GStep F)) (cells : List (GCell F)) (M : Str F D)
    (keyPart mainPart : Fm F → Fm F → Prop) (gr : Srt → Prop) (tag cast : F) (accept : D → D → D → Prop)
    (same : D → D → Prop) : Prop :=
  ∀ (m s k : Fm F) (ρ : Valn D), NoQuant m → NoQuant s → NoQuant k →
    (∀ v ∈ m.vars ++ s.vars ++ k.vars, gr v.sort ∧ M.dom v.sort (ρ v.id)) →
    accept (Fm.eval M ρ s) (Fm.eval M ρ m) (M.fn cast [Fm.eval M ρ k]) →
    Secret L steps cells M keyPart [(m, ρ), (s, ρ)] (Fm.eval M ρ k) →
    ∃ d, M.dom .message d ∧ same d (Fm.eval M ρ m) ∧ ∃ x ∈ [(m, ρ), (s, ρ)], ∃ args κ,
      Occurs L steps M mainPart (fun _ => True) x (.app tag args, κ) ∧
      Fm.eval M κ (.app tag args) = M.fn tag [d, M.fn cast [Fm.eval M ρ k]]

/-- What is assumed of the problem and of the structure: those of the completeness theorems C25 and C26. -/
structure Setting (K : Pbl F) (M : Str F D) : Prop where
  logical : Logical K.E M
  dom : ∀ s, ∃ d, M.dom s d
  trans : ∀ a b c, Lt K.E.L M a b → Lt K.E.L M b c → Lt K.E.L M a c
  prot : ProtOK K.E.L K.steps K.cells
  good : GoodProt K.E.L.kind K.steps K.cells
  own : OwnProt K.E.L K.steps K.cells
  visible : ∀ c ∈ K.cells, ∀ a ∈ c.assigns, Visible K.E.L.kind a.content
  inputs : (∀ c ∈ K.cells, ∀ a ∈ c.assigns, ¬ Mentions K.E.L.kind a.content .input) ∨
    ∀ s ∈ K.steps, ∀ x, ¬ Mentions K.E.L.kind s.message (.cell x) ∧ ¬ Mentions K.E.L.kind s.condition (.cell x)
  graph : Built K.E.L.kind K.steps K.cells K.G
  stepExec : ∀ s ∈ K.steps, NoExec K.E.L s.message ∧ NoExec K.E.L s.condition
  cellExec : ∀ c ∈ K.cells, ∀ a ∈ c.assigns, NoExec K.E.L a.content
  taqExec : ∀ f b fr cs, K.E.L.kind f = .taq b fr cs → ∀ c ∈ cs, NoExec K.E.L c
  evaluated : K.E.symbolic = false → ∀ d, K.E.val M .message d = d

/-- The numbers of the variables of a candidate, and of `u`. -/
def Pbl.outer (K : Pbl F) (c : Cand F) (i : Nat) : Prop := i = K.uId c ∨ i ∈ (c.terms.flatMap Fm.vars).map Var.id

def Cand.roots (c : Cand F) : List (Fm F × List Var) := [(c.message, []), (c.signature, [])]

/-- What is assumed of a candidate: it has no first-order quantifier, no `exec` and only variables of the sorts
`gr`, one per number; and what the completeness of the two searches needs. -/
structure CandOK [DecidableEq F] (K : Pbl F) (M : Str F D) (main key : Sub F) (gr : Srt → Prop) (tag : F) (c : Cand F) : Prop where
  noQuant : ∀ t ∈ c.terms, NoQuant t
  noExec : NoExec K.E.L c.message ∧ NoExec K.E.L c.signature
  sort : K.E.L.sortOf c.message = some .message
  vars : ∀ v ∈ c.terms.flatMap Fm.vars, gr v.sort ∧ ∀ w ∈ c.terms.flatMap Fm.vars, v.id = w.id → v = w
  keyClash : NoClash (K.search key false) .noRecMacro (topLevel K.steps K.cells ++ c.roots) (K.outer c)
  keyUnif : ∃ S, UnifOK (K.search key false) M S
    (fun t => ∃ st, Elem (K.search key false) .noRecMacro (topLevel K.steps K.cells ++ c.roots) t st) c.key
  mainClash : NoClash (K.search main true) .all c.roots (K.outer c)
  mainUnif : ∃ S, UnifOK (K.search main true) M S (fun t => ∃ st, Elem (K.search main true) .all c.roots t st)
    (.app tag [.var (K.uVar c), .app K.cast [c.key]])
  capture : K.E.symbolic = false → ∀ φ, K.mainFormula main (.app tag [.var (K.uVar c), .app K.cast [c.key]]) c = some φ →
    ∀ x ∈ φ.bound, ¬ K.outer c x.id

/-! ## Lemmas -/

theorem HasSym.of_arg {g : F} {t a : Fm F} (h : Relation.TransGen ArgOf t a) (hs : HasSym g a) : HasSym g t := by
  induction h with
  | single h => cases h with | mk h => exact .arg h hs
  | tail _ h ih => cases h with | mk h => exact ih (.arg h hs)

/-- Without `exec`, what occurs does so without `exec`. -/
theorem occurs_notExec {K : Pbl F} {M : Str F D} (hS : Setting K M) {part : Fm F → Fm F → Prop} (hp : Proper part)
    {x y : Clo F D} (hx : NoExec K.E.L x.1) (h : Occurs K.E.L K.steps M part (fun _ => True) x y) :
    NoExec K.E.L y.1 ∧ Occurs K.E.L K.steps M part MacroRef.notExec x y := by
  induction h with
  | refl => exact ⟨hx, .refl⟩
  | @tail y z _ hyz ih =>
    obtain ⟨hy, ho⟩ := ih
    rcases hyz with (hl | hl) | ⟨r, T, _, hca, hyi⟩
    · refine ⟨?_, ho.tail (.inl (.inl hl))⟩
      cases hl with
      | part h => exact fun g hg => hy g (HasSym.of_arg (hp _ _ h) hg)
      | taq h hc _ _ => exact hS.taqExec _ _ _ _ h _ hc
    · refine ⟨?_, ho.tail (.inl (.inr hl))⟩
      cases hl with
      | msg _ hs _ _ => exact (hS.stepExec _ hs).1
      | cond _ hs _ _ => exact (hS.stepExec _ hs).2
    · have hr : MacroRef.notExec r := by
        cases hca with
        | input _ _ => trivial
        | cell _ _ => trivial
        | exec h _ => exact absurd h (hy _ .here)
      refine ⟨?_, ho.tail (.inr ⟨r, T, hr, hca, hyi⟩)⟩
      cases hyi with
      | inputMsg hs _ _ => exact (hS.stepExec _ hs).1
      | inputCond hs _ _ => exact (hS.stepExec _ hs).2
      | exec hs _ _ => exact (hS.stepExec _ hs).2
      | cell ha _ _ =>
        cases hca with
        | cell hk _ => exact hS.cellExec _ (hS.prot.cells _ _ hk) _ ha

/-- What occurs in a term depends only on the values of its variables. -/
theorem occurs_agree {L : Lang F} {steps : List (GStep F)} {M : Str F D} {part : Fm F → Fm F → Prop} {X : MacroRef F → Prop}
    (hv : ∀ t a, part t a → ∀ v ∈ a.vars, v ∈ t.vars) {t : Fm F} {ρ ρ' : Valn D} (ha : ∀ v ∈ t.vars, ρ v.id = ρ' v.id)
    {y : Clo F D} (h : Occurs L steps M part X (t, ρ) y) :
    ∃ κ, Occurs L steps M part X (t, ρ') (y.1, κ) ∧ ∀ v ∈ y.1.vars, y.2 v.id = κ v.id := by
  induction h with
  | refl => exact ⟨ρ', .refl, ha⟩
  | @tail y z _ hyz ih =>
    obtain ⟨κ, ho, hk⟩ := ih
    obtain ⟨t, τ⟩ := y
    have evs : ∀ f args, t = .app f args → ∀ a ∈ args, Fm.eval M τ a = Fm.eval M κ a := by
      rintro f args rfl a haa
      exact eval_agree_vars M _ _ _ (fun v hv => hk v (vars_arg haa hv))
    rcases hyz with (hl | hl) | ⟨r, T, hX, hca, hyi⟩
    · cases hl with
      | part h => exact ⟨κ, ho.tail (.inl (.inl (.part h))), fun v hv' => hk v (hv _ _ h v hv')⟩
      | @taq f args bound free content c _ σ h hc hf hb =>
        refine ⟨σ, ho.tail (.inl (.inl (.taq h hc ?_ hb))), fun _ _ => rfl⟩
        rw [hf]
        exact List.map_congr_left (evs _ _ rfl)
    · cases hl with
      | @msg f arg _ s σ h hs hd ht =>
        exact ⟨σ, ho.tail (.inl (.inr (.msg h hs hd (by rw [← ht]; exact (evs _ _ rfl arg (by simp)).symm)))), fun _ _ => rfl⟩
      | @cond f arg _ s σ h hs hd ht =>
        exact ⟨σ, ho.tail (.inl (.inr (.cond h hs hd (by rw [← ht]; exact (evs _ _ rfl arg (by simp)).symm)))), fun _ _ => rfl⟩
    · refine ⟨z.2, ho.tail (.inr ⟨r, T, hX, ?_, hyi⟩), fun _ _ => rfl⟩
      cases hca with
      | @input f args o _ h ho' =>
        rw [evs _ _ rfl o (List.mem_of_getLast? ho')]; exact .input h ho'
      | @exec f args o _ h ho' =>
        rw [evs _ _ rfl o (List.mem_of_getLast? ho')]; exact .exec h ho'
      | @cell f args o c _ h ho' =>
        rw [evs _ _ rfl o (List.mem_of_getLast? ho')]; exact .cell h ho'

theorem mapO_id {α : Type} : ∀ {l : List (Option α)} {r : List α}, mapO id l = some r → none ∉ l ∧ l.filterMap id = r := by
  intro l
  induction l with
  | nil => intro r h; simp only [mapO, Option.some.injEq] at h; subst h; simp
  | cons a l ih =>
    intro r h
    cases a with
    | none => simp [mapO] at h
    | some a =>
      simp only [mapO, id] at h
      cases hl : mapO id l with
      | none => rw [hl] at h; simp at h
      | some r' =>
        rw [hl] at h
        simp only [Option.bind_some, Option.map_some, Option.some.injEq] at h
        obtain ⟨h1, h2⟩ := ih hl
        subst h
        exact ⟨by simp [h1], by rw [← h2]; rfl⟩

theorem NoQuant.vars_free {t : Fm F} (h : NoQuant t) : ∀ v, v ∈ t.vars → v ∈ t.free := by
  have key : ∀ t : Fm F, NoQuant t → ∀ v ∈ t.vars, v ∈ freeIn [] t := by
    intro t
    induction t using Fm.ind with
    | hvar w => intro _ v hv; simpa [Fm.vars, freeIn] using hv
    | happ f args ih =>
      intro hn v hv
      simp only [Fm.vars, varss_eq, List.mem_flatMap] at hv
      obtain ⟨a, ha, hv⟩ := hv
      simp only [freeIn, freeIns_eq, List.mem_flatMap]
      exact ⟨a, ha, ih a ha (hn.arg ha) v hv⟩
    | hquant q vs b _ => intro hn; cases hn
  exact key t h

theorem runPile_more {U P S : Type} (it : FIter U F P S) : ∀ (n m : Nat) (s : S) (π : List (Content U F P)) (l : List U),
    runPile it n s π = some l → n ≤ m → runPile it m s π = some l := by
  intro n
  induction n with
  | zero =>
    intro m s π l h _
    cases π with
    | nil => cases m <;> simpa [runPile] using h
    | cons c π => simp [runPile] at h
  | succ n ih =>
    intro m s π l h hm
    cases π with
    | nil => cases m <;> simpa [runPile] using h
    | cons c π =>
      obtain ⟨m, rfl⟩ : ∃ k, m = k + 1 := ⟨m - 1, by omega⟩
      cases c with
      | result u =>
        simp only [runPile, Option.map_eq_some_iff] at h ⊢
        obtain ⟨r, hr, e⟩ := h
        exact ⟨r, ih m _ _ _ hr (by omega), e⟩
      | next f p =>
        simp only [runPile] at h ⊢
        exact ih m _ _ _ h (by omega)

theorem freeVars_mem {fuel : Nat} {t : Fm F} {l : List Var} (h : CV.freeVars fuel t = some l) (v : Var) : v ∈ l ↔ v ∈ t.free := by
  obtain ⟨l', h1, h2⟩ := free_vars_run t (max fuel (2 * t.size)) (Nat.le_max_right ..)
  have := runPile_more _ _ _ _ _ _ h (Nat.le_max_left fuel (2 * t.size))
  rw [show runPile freeVarIter (max fuel (2 * t.size)) [] [.next t 0] = some l' from h1] at this
  cases this
  exact h2.mem_iff

theorem pbl_freeVars {K : Pbl F} {c : Cand F} (hq : ∀ t ∈ c.terms, NoQuant t) {vs : List Var} (h : K.freeVars c = some vs) :
    vs.Nodup ∧ ∀ v, v ∈ vs ↔ v ∈ c.terms.flatMap Fm.vars := by
  simp only [Pbl.freeVars, Option.map_eq_some_iff] at h
  obtain ⟨l, hl, rfl⟩ := h
  refine ⟨uniq_nodup _, fun v => ?_⟩
  rw [mem_uniq]
  constructor
  · intro hv
    obtain ⟨t, ht, b, hb, hvb⟩ := flatO_mem hl hv
    exact List.mem_flatMap.2 ⟨t, ht, free_sub_vars _ _ ((freeVars_mem hb v).1 hvb)⟩
  · intro hv
    obtain ⟨t, ht, hv⟩ := List.mem_flatMap.1 hv
    obtain ⟨b, hb, hs⟩ := flatO_mem' hl ht
    exact hs v ((freeVars_mem hb v).2 (NoQuant.vars_free (hq t ht) v hv))

section
variable [DecidableEq F]

omit [DecidableEq F] in
theorem topLevel_ok {K : Pbl F} {M : Str F D} (hS : Setting K M) (outer : Nat → Prop) (t : Fm F) (bv : List Var)
    (h : (t, bv) ∈ topLevel K.steps K.cells) : NoQuant t ∧ VarsIn outer bv t ∧ (bv.map Var.id).Nodup := by
  simp only [topLevel, List.mem_append, List.mem_flatMap, List.mem_map] at h
  rcases h with ⟨s, hs, h⟩ | ⟨c, hc, a, ha, h⟩
  · simp only [List.mem_cons, List.not_mem_nil, or_false, Prod.mk.injEq] at h
    rcases h with ⟨rfl, rfl⟩ | ⟨rfl, rfl⟩
    · exact ⟨(hS.prot.condition s hs).1, fun v hv => .inl ((hS.prot.condition s hs).2 v hv), hS.prot.params s hs⟩
    · exact ⟨(hS.prot.message s hs).1, fun v hv => .inl ((hS.prot.message s hs).2 v hv), hS.prot.params s hs⟩
  · simp only [Prod.mk.injEq] at h
    obtain ⟨rfl, rfl⟩ := h
    exact ⟨(hS.prot.content c hc a ha).1, fun v hv => .inl ((hS.prot.content c hc a ha).2 v hv), hS.prot.fresh c hc a ha⟩

omit [DecidableEq F] in
theorem cand_roots_ok {K : Pbl F} {c : Cand F} (hq : ∀ t ∈ c.terms, NoQuant t) (t : Fm F) (bv : List Var) (h : (t, bv) ∈ c.roots) :
    NoQuant t ∧ VarsIn (K.outer c) bv t ∧ (bv.map Var.id).Nodup := by
  simp only [Cand.roots, List.mem_cons, List.not_mem_nil, or_false, Prod.mk.injEq] at h
  have ht : t ∈ c.terms ∧ bv = [] := by
    rcases h with ⟨rfl, rfl⟩ | ⟨rfl, rfl⟩ <;> simp [Cand.terms]
  obtain ⟨ht, rfl⟩ := ht
  exact ⟨hq t ht, fun v hv => .inr (.inr (List.mem_map_of_mem (List.mem_flatMap.2 ⟨t, ht, hv⟩))), by simp⟩

/-- The terms of a candidate, as places where the searches start. -/
def rootsOf (starts : List (Fm F)) : List (Fm F × List Var) := starts.map fun t => (t, [])

omit [DecidableEq F] in
theorem rootsOf_ok {outer : Nat → Prop} {starts : List (Fm F)} (hq : ∀ t ∈ starts, NoQuant t) (ho : ∀ t ∈ starts, ∀ v ∈ t.vars, outer v.id)
    (t : Fm F) (bv : List Var) (h : (t, bv) ∈ rootsOf starts) : NoQuant t ∧ VarsIn outer bv t ∧ (bv.map Var.id).Nodup := by
  obtain ⟨t', ht, e⟩ := List.mem_map.1 h
  cases e
  exact ⟨hq t ht, fun v hv => .inr (ho t ht v hv), by simp⟩

/-- A key that is not found by the search is secret. -/
theorem secret_of_search {K : Pbl F} {M : Str F D} (hS : Setting K M) {key : Sub F} {keyPart : Fm F → Fm F → Prop}
    (hks : Shrinks key.A) (hkd : Descends key.A keyPart) (hkn : key.A.sort = .name) {outer : Nat → Prop} {x : Fm F}
    {starts : List (Fm F)} (hq : ∀ t ∈ starts, NoQuant t) (ho : ∀ t ∈ starts, ∀ v ∈ t.vars, outer v.id)
    (hxk : ∀ v ∈ x.vars, outer v.id)
    (hcl : NoClash (K.search key false) .noRecMacro (topLevel K.steps K.cells ++ rootsOf starts) outer)
    {Sk : F → Prop} (huk : UnifOK (K.search key false) M Sk
      (fun t => ∃ st, Elem (K.search key false) .noRecMacro (topLevel K.steps K.cells ++ rootsOf starts) t st) x)
    (hkey : Dep.search (K.search key false) K.fuel x .noRecMacro (topLevel K.steps K.cells ++ rootsOf starts) = some [])
    (ρ₁ : Valn D) :
    Secret K.E.L K.steps K.cells M keyPart (starts.map fun t => (t, ρ₁)) (Fm.eval M ρ₁ x) := by
  have hrk : ∀ t bv, (t, bv) ∈ topLevel K.steps K.cells ++ rootsOf starts →
      NoQuant t ∧ VarsIn outer bv t ∧ (bv.map Var.id).Nodup := by
    intro t bv h
    rcases List.mem_append.1 h with h | h
    · exact topLevel_ok hS _ t bv h
    · exact rootsOf_ok hq ho t bv h
  have hsub := AncSpec.cells_sub (hS.graph.spec hS.good)
  -- from a root of the search
  have root : ∀ r bv ρ₀, (r, bv) ∈ topLevel K.steps K.cells ++ rootsOf starts → InDom M bv ρ₀ →
      (∀ v ∈ r.vars, v.id ∉ bv.map Var.id → ρ₀ v.id = ρ₁ v.id) → ∀ f args κ, K.E.L.out f = some .name →
      Occurs K.E.L K.steps M keyPart (fun _ => True) (r, ρ₀) (.app f args, κ) → Fm.eval M κ (.app f args) ≠ Fm.eval M ρ₁ x := by
    intro r bv ρ₀ hroot hdom hoff f args κ hf ho hv
    let ρ₂ : Valn D := fun i => if i ∈ bv.map Var.id then ρ₀ i else ρ₁ i
    have hag : ∀ v ∈ r.vars, ρ₀ v.id = ρ₂ v.id := by
      intro v hv
      by_cases hb : v.id ∈ bv.map Var.id
      · simp only [ρ₂, if_pos hb]
      · simp only [ρ₂, if_neg hb]; exact hoff v hv hb
    obtain ⟨κ', ho', hk'⟩ := occurs_agree hkd.vars hag ho
    obtain ⟨_, _, hres, _⟩ := C25_search_complete_partial (C := K.search key false) (cells := K.cells) (part := keyPart)
      (ρ := ρ₁) (ρ₀ := ρ₂) .noRecMacro rfl hS.prot hS.logical.sem hks hkd hsub
      (fun p hp => List.mem_append_left _ hp) hrk hcl hxk huk hkey (by simp) hroot
      (fun i hi => if_neg hi)
      (fun v hv => by simp only [ρ₂, if_pos (List.mem_map_of_mem (f := Var.id) hv)]; exact hdom v hv)
      ho' (by rw [show (K.search key false).A = key.A from rfl, hkn]; exact .inl hf)
      (by rw [← hv]; exact (eval_agree_vars M _ _ _ hk').symm)
    cases hres
  rintro y (hx | hx) f args κ hf ho
  · obtain ⟨t, ht, rfl⟩ := List.mem_map.1 hx
    exact root t [] ρ₁ (List.mem_append_right _ (List.mem_map_of_mem ht)) (fun _ h => nomatch h) (fun _ _ _ => rfl) f args κ hf ho
  · cases hx with
    | @message s σ hs hd =>
      exact root s.message s.vars σ (List.mem_append_left _ (by
          simp only [topLevel, List.mem_append, List.mem_flatMap]; exact .inl ⟨s, hs, by simp⟩)) hd
        (fun v hv hn => absurd ((hS.prot.message s hs).2 v hv) hn) f args κ hf ho
    | @condition s σ hs hd =>
      exact root s.condition s.vars σ (List.mem_append_left _ (by
          simp only [topLevel, List.mem_append, List.mem_flatMap]; exact .inl ⟨s, hs, by simp⟩)) hd
        (fun v hv hn => absurd ((hS.prot.condition s hs).2 v hv) hn) f args κ hf ho
    | @assign c' a' σ hc' ha' hd =>
      exact root a'.content (a'.step.vars ++ a'.fresh) σ (List.mem_append_left _ (by
          simp only [topLevel, List.mem_append, List.mem_flatMap, List.mem_map]; exact .inr ⟨c', hc', a', ha', rfl⟩)) hd
        (fun v hv hn => absurd ((hS.prot.content c' hc' a' ha').2 v hv) hn) f args κ hf ho

/-- A term of the value searched for, that occurs in the candidate, is found. -/
theorem found_of_occurs {K : Pbl F} {M : Str F D} (hS : Setting K M) {main : Sub F} {mainPart : Fm F → Fm F → Prop}
    (hms : Shrinks main.A) (hmd : Descends main.A mainPart) (hmp : Proper mainPart) (hmn : main.A.sort = .message)
    {tag : F} (htag : K.E.L.out tag = some .message) {outer : Nat → Prop} {x : Fm F}
    {starts : List (Fm F)} (hq : ∀ t ∈ starts, NoQuant t) (hne : ∀ t ∈ starts, NoExec K.E.L t)
    (ho : ∀ t ∈ starts, ∀ v ∈ t.vars, outer v.id) (hx' : ∀ v ∈ x.vars, outer v.id)
    (hcl : NoClash (K.search main true) .all (rootsOf starts) outer)
    {Sm : F → Prop} (hum : UnifOK (K.search main true) M Sm (fun t => ∃ st, Elem (K.search main true) .all (rootsOf starts) t st) x)
    {ψ : Fm F} (hψ : (Dep.search (K.search main true) K.fuel x .all (rootsOf starts)).bind (fun res =>
      (mapO id res).map (intoExist K.E.L)) = some ψ)
    {ρ₁ ρ₂ : Valn D} (hag : ∀ t ∈ starts, ∀ v ∈ t.vars, ρ₁ v.id = ρ₂ v.id) {r : Fm F} (hr : r ∈ starts) {args : List (Fm F)} {κ : Valn D}
    (hocc : Occurs K.E.L K.steps M mainPart (fun _ => True) (r, ρ₁) (.app tag args, κ))
    (hval : Fm.eval M κ (.app tag args) = Fm.eval M ρ₂ x) : M.truth (Fm.eval M ρ₂ ψ) := by
  have hsub := AncSpec.cells_sub (hS.graph.spec hS.good)
  obtain ⟨res, hres, hψ⟩ := Option.bind_eq_some_iff.1 hψ
  obtain ⟨rs, hrs, rfl⟩ := Option.map_eq_some_iff.1 hψ
  obtain ⟨hnone, rfl⟩ := mapO_id hrs
  obtain ⟨κ', ho', hk'⟩ := occurs_agree hmd.vars (hag r hr) (occurs_notExec hS hmp (hne r hr) hocc).2
  have hev : Fm.eval M κ' (.app tag args) = Fm.eval M ρ₂ x := by
    rw [← eval_agree_vars M _ _ _ hk', hval]
  obtain ⟨ws, χ, h1, h2⟩ := C26_search_complete_partial (C := K.search main true) (cells := K.cells) (part := mainPart)
    hS.logical.sem hS.prot hms hmd (hS.own.timed M _ hmp hS.trans)
    (hS.own.graphOK hS.visible hS.inputs hS.prot.cells K.G (hS.graph.spec hS.good) M _ hmp) hsub
    (fun t bv h => rootsOf_ok hq ho t bv h) hcl hx' hum hres hnone (List.mem_map_of_mem hr)
    (ρ := ρ₂) (fun _ _ => rfl) (fun _ h => nomatch h) ho'
    (by rw [show (K.search main true).A = main.A from rfl, hmn]; exact .inl htag) hev
  exact (C31_search_partial (C := K.search main true) (cells := K.cells) hS.logical.sem hS.prot hms hsub
    (fun t bv h => rootsOf_ok hq ho t bv h) hcl hx' hS.dom hres _).2 ⟨ws, χ, h1, h2⟩

/-- The general form: the axiom of an instance is true, whatever the ways of descending. -/
theorem instance_sound {K : Pbl F} {M : Str F D} (hS : Setting K M) {main key : Sub F} {keyPart mainPart : Fm F → Fm F → Prop}
    (hks : Shrinks key.A) (hkd : Descends key.A keyPart) (hkn : key.A.sort = .name)
    (hms : Shrinks main.A) (hmd : Descends main.A mainPart) (hmp : Proper mainPart) (hmn : main.A.sort = .message)
    {tag : F} (htag : K.E.L.out tag = some .message) {gr : Srt → Prop} {acc : D → D → D → Prop}
    (hun : Unforgeable K.E.L K.steps K.cells M keyPart mainPart gr tag K.cast acc
      (fun a b => K.E.val M .message a = K.E.val M .message b))
    {accept : Fm F → Fm F → Fm F → Option (Fm F)} {c : Cand F} (hc : CandOK K M main key gr tag c)
    (hacc : ∀ a ρ, accept c.signature c.message (.app K.cast [c.key]) = some a → M.truth (Fm.eval M ρ a) →
      acc (Fm.eval M ρ c.signature) (Fm.eval M ρ c.message) (M.fn K.cast [Fm.eval M ρ c.key]))
    {axs : List (Fm F)} (h : K.instanceAx main key tag accept c = some axs) (ρ : Valn D) (φ : Fm F) (hφ : φ ∈ axs) :
    M.truth (Fm.eval M ρ φ) := by
  unfold Pbl.instanceAx at h
  simp only [] at h
  obtain ⟨ok, hok, h⟩ := Option.bind_eq_some_iff.1 h
  cases ok with
  | false => simp only [Bool.false_eq_true, if_false, Option.some.injEq] at h; subst h; cases hφ
  | true =>
  simp only [if_true] at h
  split at h
  swap
  · cases h
  rename_i vs ψ a eu em hvs hψ ha heu hem
  simp only [Option.some.injEq] at h
  subst h
  rw [List.mem_singleton] at hφ
  subst hφ
  obtain ⟨hnd, hmem⟩ := pbl_freeVars hc.noQuant hvs
  have hids : (vs.map Var.id).Nodup := by
    refine List.Nodup.map_on ?_ hnd
    intro v hv w hw e
    exact (hc.vars v ((hmem v).1 hv)).2 w ((hmem w).1 hw) e
  -- the variables
  have hvm : ∀ t ∈ c.terms, ∀ v ∈ t.vars, v ∈ vs := fun t ht v hv => (hmem v).2 (List.mem_flatMap.2 ⟨t, ht, hv⟩)
  have hufresh : ∀ t ∈ c.terms, ∀ v ∈ t.vars, v.id ≠ K.uId c := by
    intro t ht v hv e
    have := (C05_fresh ((c.terms.flatMap Fm.vars).map Var.id) K.maxVar).2 v.id
      (List.mem_map_of_mem (List.mem_flatMap.2 ⟨t, ht, hv⟩))
    rw [e] at this
    exact absurd this (Nat.lt_irrefl _)
  rw [truth_mkForall]
  refine quantVal_all_of M _ vs ρ hids (fun ρ₁ _ hd₁ => ?_)
  simp only [Fm.eval, evals]
  refine (hS.logical.imp _ _).2 (fun hat => ?_)
  -- the key is secret
  have hkey : Dep.search (K.search key false) K.fuel c.key .noRecMacro (topLevel K.steps K.cells ++ c.roots) = some [] := by
    unfold Pbl.keyOk at hok
    unfold Cand.roots
    split at hok
    · cases hok
    · assumption
    · cases hok
    · cases hok
  have hxk : ∀ v ∈ c.key.vars, K.outer c v.id := fun v hv =>
    .inr (List.mem_map_of_mem (List.mem_flatMap.2 ⟨c.key, by simp [Cand.terms], hv⟩))
  have hst : ∀ t ∈ [c.message, c.signature], t ∈ c.terms := by simp [Cand.terms]
  have hso : ∀ t ∈ [c.message, c.signature], ∀ v ∈ t.vars, K.outer c v.id := fun t ht v hv =>
    .inr (List.mem_map_of_mem (List.mem_flatMap.2 ⟨t, hst t ht, hv⟩))
  obtain ⟨Sk, huk⟩ := hc.keyUnif
  have hsecret : Secret K.E.L K.steps K.cells M keyPart [(c.message, ρ₁), (c.signature, ρ₁)] (Fm.eval M ρ₁ c.key) :=
    secret_of_search hS hks hkd hkn (starts := [c.message, c.signature]) (fun t ht => hc.noQuant t (hst t ht)) hso hxk
      hc.keyClash huk hkey ρ₁
  -- unforgeability
  obtain ⟨d, hdd, hsame, x, hx, args, κ, ho, hval⟩ := hun c.message c.signature c.key ρ₁ (hc.noQuant _ (by simp [Cand.terms]))
    (hc.noQuant _ (by simp [Cand.terms])) (hc.noQuant _ (by simp [Cand.terms]))
    (fun v hv => by
      have hv' : v ∈ c.terms.flatMap Fm.vars := by
        simp only [List.mem_append] at hv
        simp only [Cand.terms, List.flatMap_cons, List.flatMap_nil, List.mem_append, List.append_nil]
        rcases hv with (hv | hv) | hv
        · exact .inl hv
        · exact .inr (.inl hv)
        · exact .inr (.inr hv)
      exact ⟨(hc.vars v hv').1, hd₁ v ((hmem v).2 hv')⟩)
    (hacc a ρ₁ ha hat) hsecret
  -- the search of the tag
  have hmain : M.truth (Fm.eval M (ρ₁.set (K.uId c) d) ψ) := by
    have hag : ∀ t ∈ c.terms, ∀ v ∈ t.vars, ρ₁ v.id = ρ₁.set (K.uId c) d v.id := fun t ht v hv =>
      (Valn.set_ne _ _ (hufresh t ht v hv)).symm
    obtain ⟨Sm, hum⟩ := hc.mainUnif
    have hx' : ∀ v ∈ (Fm.app tag [.var (K.uVar c), .app K.cast [c.key]]).vars, K.outer c v.id := by
      intro v hv
      simp only [Fm.vars, varss, List.append_nil, List.mem_append, List.mem_singleton] at hv
      rcases hv with rfl | hv
      · exact .inl rfl
      · exact hxk v hv
    obtain ⟨r, hr, rfl⟩ : ∃ r ∈ [c.message, c.signature], x = (r, ρ₁) := by
      simp only [List.mem_cons, List.not_mem_nil, or_false] at hx
      rcases hx with rfl | rfl
      · exact ⟨_, by simp, rfl⟩
      · exact ⟨_, by simp, rfl⟩
    refine found_of_occurs hS hms hmd hmp hmn htag (starts := [c.message, c.signature]) (fun t ht => hc.noQuant t (hst t ht)) ?_ hso hx'
      hc.mainClash hum hψ (fun t ht => hag t (hst t ht)) hr ho ?_
    · simp only [List.mem_cons, List.not_mem_nil, or_false, forall_eq_or_imp, forall_eq]
      exact hc.noExec
    · rw [hval]
      simp only [Fm.eval, evals, Pbl.uVar, Valn.set_self]
      rw [eval_agree_vars M c.key _ _ (hag c.key (by simp [Cand.terms]))]
  by_cases hsy : K.E.symbolic = true
  · rw [if_pos hsy, truth_mkExists]
    refine ⟨d, hdd, ?_⟩
    change M.truth (Fm.eval M (ρ₁.set (K.uId c) d) (K.E.L.ands [K.E.L.meq eu em, ψ]))
    simp only [Lang.ands, Lang.meq, Fm.eval, evals]
    refine (hS.logical.sem.and _).2 ?_
    intro e he
    simp only [List.mem_cons, List.not_mem_nil, or_false] at he
    rcases he with rfl | rfl
    · refine (hS.logical.sem.eq _ _).2 ?_
      rw [eval_val M (sortOf_var _ _) heu, eval_val M hc.sort hem]
      simp only [Fm.eval, Pbl.uVar, Valn.set_self]
      rw [← eval_agree_vars M c.message ρ₁ (ρ₁.set (K.uId c) d) (fun v hv =>
        (Valn.set_ne _ _ (hufresh c.message (by simp [Cand.terms]) v hv)).symm)]
      exact hsame
    · exact hmain
  · have hsf : K.E.symbolic = false := by simpa using hsy
    rw [if_neg hsy, C01_one_var]
    · rw [hS.evaluated hsf, hS.evaluated hsf] at hsame
      rw [← hsame]
      exact hmain
    · intro x hx
      have := hc.capture hsf ψ hψ x hx
      refine ⟨fun e => this (.inl e), fun w hw e => this (.inr ?_)⟩
      rw [← e]
      exact List.mem_map_of_mem (List.mem_flatMap.2 ⟨c.message, by simp [Cand.terms], free_sub_vars _ _ hw⟩)

/-- What the axiom of an instance says: when the signature is accepted, a message that evaluates as the one
verified has its tag found by the search. -/
theorem instance_says {K : Pbl F} {M : Str F D} (hS : Setting K M) {main key : Sub F} (hms : Shrinks main.A)
    {tag : F} {gr : Srt → Prop} {accept : Fm F → Fm F → Fm F → Option (Fm F)} {c : Cand F} (hc : CandOK K M main key gr tag c)
    {axs : List (Fm F)} (h : K.instanceAx main key tag accept c = some axs) (hok : K.keyOk key c = some true)
    {ρ : Valn D} (hax : ∀ φ ∈ axs, M.truth (Fm.eval M ρ φ)) {τ : Valn D} (hoff : ∀ i, ¬ K.outer c i → τ i = ρ i)
    (hu : τ (K.uId c) = ρ (K.uId c)) (hd : InDom M (c.terms.flatMap Fm.vars) τ)
    (hdm : K.E.symbolic = false → M.dom .message (Fm.eval M τ c.message)) {a : Fm F}
    (ha : accept c.signature c.message (.app K.cast [c.key]) = some a) (hat : M.truth (Fm.eval M τ a)) :
    ∃ d, M.dom .message d ∧ K.E.val M .message d = K.E.val M .message (Fm.eval M τ c.message) ∧
      ∃ res, Dep.search (K.search main true) K.fuel (.app tag [.var (K.uVar c), .app K.cast [c.key]]) .all c.roots = some res ∧
        ∃ vs χ, some (vs, χ) ∈ res ∧ quantVal M .ex vs (fun κ => M.truth (Fm.eval M κ χ)) (τ.set (K.uId c) d) := by
  unfold Pbl.instanceAx at h
  simp only [hok, Option.bind_some, if_true] at h
  split at h
  swap
  · cases h
  rename_i vs ψ a' eu em hvs hψ ha' heu hem
  rw [ha] at ha'
  cases ha'
  simp only [Option.some.injEq] at h
  subst h
  have hax := hax _ (List.mem_singleton_self _)
  obtain ⟨hnd, hmem⟩ := pbl_freeVars hc.noQuant hvs
  rw [truth_mkForall] at hax
  have hax := quantVal_all_elim M _ vs ρ τ (fun i hi => by
      by_cases ho : K.outer c i
      · rcases ho with rfl | ho
        · exact hu
        · obtain ⟨v, hv, rfl⟩ := List.mem_map.1 ho
          exact absurd (List.mem_map_of_mem ((hmem v).2 hv)) hi
      · exact hoff i ho) (fun v hv => hd v ((hmem v).1 hv)) hax
  simp only [Fm.eval, evals] at hax
  have hax := (hS.logical.imp _ _).1 hax hat
  have hsub := AncSpec.cells_sub (hS.graph.spec hS.good)
  have hufresh : ∀ t ∈ c.terms, ∀ v ∈ t.vars, v.id ≠ K.uId c := by
    intro t ht v hv e
    have := (C05_fresh ((c.terms.flatMap Fm.vars).map Var.id) K.maxVar).2 v.id
      (List.mem_map_of_mem (List.mem_flatMap.2 ⟨t, ht, hv⟩))
    rw [e] at this
    exact absurd this (Nat.lt_irrefl _)
  have hx' : ∀ v ∈ (Fm.app tag [.var (K.uVar c), .app K.cast [c.key]]).vars, K.outer c v.id := by
    intro v hv
    simp only [Fm.vars, varss, List.append_nil, List.mem_append, List.mem_singleton] at hv
    rcases hv with rfl | hv
    · exact .inl rfl
    · exact .inr (List.mem_map_of_mem (List.mem_flatMap.2 ⟨c.key, by simp [Cand.terms], hv⟩))
  have main : ∀ d, M.truth (Fm.eval M (τ.set (K.uId c) d) ψ) →
      ∃ res, Dep.search (K.search main true) K.fuel (.app tag [.var (K.uVar c), .app K.cast [c.key]]) .all c.roots = some res ∧
        ∃ vs χ, some (vs, χ) ∈ res ∧ quantVal M .ex vs (fun κ => M.truth (Fm.eval M κ χ)) (τ.set (K.uId c) d) := by
    intro d ht
    unfold Pbl.mainFormula at hψ
    obtain ⟨res, hres, hψ⟩ := Option.bind_eq_some_iff.1 hψ
    obtain ⟨rs, hrs, rfl⟩ := Option.map_eq_some_iff.1 hψ
    obtain ⟨hnone, rfl⟩ := mapO_id hrs
    exact ⟨res, hres, (C31_search_partial (C := K.search main true) (cells := K.cells) hS.logical.sem hS.prot hms hsub
      (fun t bv h => cand_roots_ok hc.noQuant t bv h) hc.mainClash hx' hS.dom hres _).1 ht⟩
  by_cases hsy : K.E.symbolic = true
  · rw [if_pos hsy, truth_mkExists] at hax
    obtain ⟨d, hdd, hax⟩ := hax
    change M.truth (Fm.eval M (τ.set (K.uId c) d) (K.E.L.ands [K.E.L.meq eu em, ψ])) at hax
    simp only [Lang.ands, Lang.meq, Fm.eval, evals] at hax
    have h2 := (hS.logical.sem.and _).1 hax
    have h3 := (hS.logical.sem.eq _ _).1 (h2 _ (List.mem_cons_self ..))
    rw [eval_val M (sortOf_var _ _) heu, eval_val M hc.sort hem] at h3
    simp only [Fm.eval, Pbl.uVar, Valn.set_self] at h3
    rw [← eval_agree_vars M c.message τ (τ.set (K.uId c) d) (fun v hv =>
      (Valn.set_ne _ _ (hufresh c.message (by simp [Cand.terms]) v hv)).symm)] at h3
    exact ⟨d, hdd, h3, main d (h2 _ (List.mem_cons_of_mem _ (List.mem_singleton_self _)))⟩
  · have hsf : K.E.symbolic = false := by simpa using hsy
    rw [if_neg hsy, C01_one_var] at hax
    · exact ⟨_, hdm hsf, rfl, main _ hax⟩
    · intro x hx
      have := hc.capture hsf ψ hψ x hx
      refine ⟨fun e => this (.inl e), fun w hw e => this (.inr ?_)⟩
      rw [← e]
      exact List.mem_map_of_mem (List.mem_flatMap.2 ⟨c.message, by simp [Cand.terms], free_sub_vars _ _ hw⟩)

/-! ## MACs -/

/-- SPECIFICATION. A MAC is accepted: `verify` evaluates to true or, with `hmac`, the MAC evaluates to the same as
the one expected. -/
def Uf.accepts (U : Uf F) (K : Pbl F) (M : Str F D) (s m k : D) : Prop :=
  if U.hmac then K.E.val M .message s = K.E.val M .message (M.fn U.mac [m, k])
  else M.truth (K.E.val M .condition (M.fn U.verify [s, m, k]))

omit [DecidableEq F] in
theorem Uf.accept_val {U : Uf F} {K : Pbl F} (M : Str F D) (hmac : K.E.L.out U.mac = some .message)
    (hver : K.E.L.out U.verify = some .condition) (hl : Sem K.E.L M) {s m k a : Fm F}
    (hs : U.hmac = true → K.E.L.sortOf s = some .message) (h : U.accept K s m k = some a) (ρ : Valn D) :
    M.truth (Fm.eval M ρ a) ↔ U.accepts K M (Fm.eval M ρ s) (Fm.eval M ρ m) (Fm.eval M ρ k) := by
  unfold Uf.accept at h
  unfold Uf.accepts
  split at h
  · rename_i hh
    obtain ⟨x, hx, h⟩ := Option.bind_eq_some_iff.1 h
    obtain ⟨y, hy, rfl⟩ := Option.map_eq_some_iff.1 h
    rw [if_pos hh]
    simp only [Lang.meq, Fm.eval, evals]
    rw [hl.eq, eval_val M (hs hh) hx, eval_val M (sortOf_app hmac _) hy]
    simp only [Fm.eval, evals]
  · rename_i hh
    rw [if_neg hh, eval_val M (sortOf_app hver _) h]
    simp only [Fm.eval, evals]

/-- **C61: the instances generated for a MAC are true.** In every structure in which the MAC is unforgeable, every
axiom generated for the verifications found in the problem holds. `_partial`: for a protocol as in C25 and C26
without `exec`, and candidates (`CandOK`) on which the two searches are complete and whose variables range over
the sorts for which unforgeability is stated; `C61_message_variable_counterexample` shows that the code also
generates an axiom, which is false, when they do not. -/
theorem C61_mac_partial {K : Pbl F} {M : Str F D} (hS : Setting K M) {U : Uf F} (hh : U.hmac = false) (hmv : U.mac ≠ U.verify)
    (hmac : K.E.L.out U.mac = some .message) (hver : K.E.L.out U.verify = some .condition) {gr : Srt → Prop}
    (hun : Unforgeable K.E.L K.steps K.cells M (KeyPart U.mac U.verify K.cast) (MainPart U.mac U.verify) gr U.mac K.cast
      (U.accepts K M) (fun a b => K.E.val M .message a = K.E.val M .message b))
    {cs : List (Cand F)} (hcs : U.candidates K = some cs) (hc : ∀ c ∈ cs, CandOK K M (U.main K) (U.key K) gr U.mac c)
    {axs : List (Fm F)} (h : U.preprocess K = some axs) (ρ : Valn D) (φ : Fm F) (hφ : φ ∈ axs) :
    M.truth (Fm.eval M ρ φ) := by
  unfold Uf.preprocess at h
  rw [hcs, Option.bind_some] at h
  obtain ⟨c, hcm, l, hl, hφ⟩ := flatO_mem h hφ
  have hA : (U.main K).A = .ufMain K.E.L K.eqTa U.mac U.verify false := by rw [← hh]; rfl
  refine instance_sound hS (key := U.key K) (main := U.main K) (ufKey_shrinks _ _ _) (KeyPart.down _ _ _ hmv) rfl
    (hA ▸ ufMain_shrinks _ _ _ _ _) (hA ▸ MainPart.down _ _ _ _) (MainPart.proper _ _) rfl hmac hun (hc c hcm)
    (fun a ρ ha ht => ?_) hl ρ φ hφ
  have := (Uf.accept_val M hmac hver hS.logical.sem (fun e => by rw [hh] at e; cases e) ha ρ).1 ht
  simpa only [Fm.eval, evals] using this

/-- **C61 with `hmac`.** The same when comparing with a MAC is verifying it. `_partial`: moreover, what occurs is
restricted to what the code descends into (`HmacSeen`, see `C26_hmac_counterexample`). -/
theorem C61_hmac_partial {K : Pbl F} {M : Str F D} (hS : Setting K M) {U : Uf F} (hh : U.hmac = true) (hmv : U.mac ≠ U.verify)
    (hev : K.E.L.eq ≠ U.verify) (hev' : K.eqTa ≠ U.verify)
    (hmac : K.E.L.out U.mac = some .message) (hver : K.E.L.out U.verify = some .condition) {gr : Srt → Prop}
    (hun : Unforgeable K.E.L K.steps K.cells M (KeyPart U.mac U.verify K.cast) (HmacSeen K.E.L.eq K.eqTa U.mac U.verify) gr
      U.mac K.cast (U.accepts K M) (fun a b => K.E.val M .message a = K.E.val M .message b))
    {cs : List (Cand F)} (hcs : U.candidates K = some cs) (hc : ∀ c ∈ cs, CandOK K M (U.main K) (U.key K) gr U.mac c)
    (hsg : ∀ c ∈ cs, K.E.L.sortOf c.signature = some .message)
    {axs : List (Fm F)} (h : U.preprocess K = some axs) (ρ : Valn D) (φ : Fm F) (hφ : φ ∈ axs) :
    M.truth (Fm.eval M ρ φ) := by
  unfold Uf.preprocess at h
  rw [hcs, Option.bind_some] at h
  obtain ⟨c, hcm, l, hl, hφ⟩ := flatO_mem h hφ
  have hA : (U.main K).A = .ufMain K.E.L K.eqTa U.mac U.verify true := by rw [← hh]; rfl
  refine instance_sound hS (key := U.key K) (main := U.main K) (ufKey_shrinks _ _ _) (KeyPart.down _ _ _ hmv) rfl
    (hA ▸ ufMain_shrinks _ _ _ _ _) (hA ▸ HmacSeen.down _ _ _ _ hev hev') (HmacSeen.proper _ _ _ _) rfl hmac hun (hc c hcm)
    (fun a ρ ha ht => ?_) hl ρ φ hφ
  have := (Uf.accept_val M hmac hver hS.logical.sem (fun _ => hsg c hcm) ha ρ).1 ht
  simpa only [Fm.eval, evals] using this

/-- `t'` is `t` with the variables that occur in it renumbered by `r`. -/
inductive Renumbered (r : Nat → Nat) : Fm F → Fm F → Prop where
  | var {i s} : Renumbered r (.var ⟨i, s⟩) (.var ⟨r i, s⟩)
  | app {f l l'} (h : l.length = l'.length) (ha : ∀ p ∈ l.zip l', Renumbered r p.1 p.2) : Renumbered r (.app f l) (.app f l')
  | quant {q vs b b'} (h : Renumbered r b b') : Renumbered r (.quant q vs b) (.quant q vs b')

/-- A copy of the candidate is among `cs`: its three terms renumbered alike, without identifying variables, and away
from the variables of the problem. -/
def CopyIn (tops : List (Fm F)) (m s k : Fm F) (cs : List (Cand F)) : Prop :=
  ∃ c ∈ cs, ∃ r : Nat → Nat, (∀ i j, r i = r j → i = j) ∧ (∀ top ∈ tops, ∀ v ∈ top.vars, ∀ i, r i ≠ v.id) ∧
    Renumbered r m c.message ∧ Renumbered r s c.signature ∧ Renumbered r k c.key

omit [DecidableEq F] in
theorem renumbered_translate (n : Nat) (t : Fm F) : Renumbered (· + n) t (t.translateVars n) := by
  unfold Fm.translateVars
  induction t using Fm.ind with
  | hvar v => exact .var
  | happ g args ih =>
    simp only [Subst.apply, Subst.applys_eq]
    refine .app (by simp) ?_
    intro p hp
    obtain ⟨i, hi, rfl⟩ := List.mem_iff_getElem.1 hp
    simp only [List.getElem_zip, List.getElem_map]
    exact ih _ (List.getElem_mem _)
  | hquant q vs b ih => exact .quant (by simpa [Subst.apply] using ih)

omit [DecidableEq F] in
theorem copyIn_prepare {K : Pbl F} {m s k : Fm F} {cs : List (Cand F)} (h : K.prepare ⟨m, s, k⟩ ∈ cs) :
    CopyIn K.tops m s k cs := by
  refine ⟨_, h, (· + K.maxVar), fun i j h => Nat.add_right_cancel h, ?_, renumbered_translate _ _,
    renumbered_translate _ _, renumbered_translate _ _⟩
  intro top ht v hv i
  have := C05_fresh_formulas K.tops top ht v hv
  show i + K.maxVar ≠ v.id
  unfold Pbl.maxVar
  omega

/-- **C62: no verification is forgotten.** Every `verify(s, m, k)`, with `k` the cast of a name, and with `hmac`
every comparison of messages or of their evaluations with a MAC, written in a top-level term of the problem is a candidate
(with its variables renumbered). -/
theorem C62_mac_found {K : Pbl F} {U : Uf F} {cs : List (Cand F)} (hcs : U.candidates K = some cs)
    {top : Fm F} (htop : top ∈ K.tops) {m s k : Fm F} :
    (Fm.app U.verify [s, m, .app K.cast [k]] ∈ top.subs → CopyIn K.tops m s k cs) ∧
    (U.hmac = true → ∀ f, f = K.E.L.eq ∨ f = K.eqTa →
      (Fm.app f [s, .app U.mac [m, .app K.cast [k]]] ∈ top.subs → CopyIn K.tops m s k cs) ∧
      (Fm.app f [.app U.mac [m, .app K.cast [k]], s] ∈ top.subs → CopyIn K.tops m s k cs)) ∧
    (U.hmac = true →
      (Fm.app K.E.L.eq [.app K.toBits [s], .app K.toBits [.app U.mac [m, .app K.cast [k]]]] ∈ top.subs →
        CopyIn K.tops m s k cs) ∧
      (Fm.app K.E.L.eq [.app K.toBits [.app U.mac [m, .app K.cast [k]]], .app K.toBits [s]] ∈ top.subs →
        CopyIn K.tops m s k cs)) := by
  unfold Uf.candidates at hcs
  obtain ⟨l, hl, rfl⟩ := Option.map_eq_some_iff.1 hcs
  have key : ∀ t ∈ top.subs, ∀ c ∈ U.found K t, K.prepare c ∈ uniq ((l.flatMap (U.found K)).map K.prepare) := by
    intro t ht c hc
    rw [mem_uniq]
    refine List.mem_map_of_mem (List.mem_flatMap.2 ⟨t, ?_, hc⟩)
    obtain ⟨b, hb, hs⟩ := flatO_mem' hl htop
    refine hs t ?_
    obtain ⟨n, hn⟩ := C04_all_terms top
    obtain ⟨b', h1, h2⟩ := hn (max K.fuel n) (Nat.le_max_right ..)
    have := runPile_more _ _ _ _ _ _ hb (Nat.le_max_left K.fuel n)
    rw [show runPile allTermsIter (max K.fuel n) () [.next top ()] = some b' from h1] at this
    cases this
    exact h2.mem_iff.2 ht
  refine ⟨fun h => copyIn_prepare (key _ h _ ?_), fun hh f hf => ⟨fun h => copyIn_prepare (key _ h _ ?_), fun h => copyIn_prepare (key _ h _ ?_)⟩, fun hh => ⟨fun h => copyIn_prepare (key _ h _ ?_), fun h => copyIn_prepare (key _ h _ ?_)⟩⟩
  · simp [Uf.found, castArg]
  · rcases hf with rfl | rfl <;> simp [Uf.found, castArg, hh, Uf.macKey]
  · rcases hf with rfl | rfl <;> simp [Uf.found, castArg, hh, Uf.macKey]
  · simp [Uf.found, castArg, hh, Uf.macKey, Pbl.bitsArg]
  · simp [Uf.found, castArg, hh, Uf.macKey, Pbl.bitsArg]

/-- **C62: what the axioms for a MAC say.** Let the axioms generated hold. If the MAC of a candidate is accepted and
its key was not found in the problem, then some message that evaluates as the one verified has its MAC found, in
the message or the MAC of the candidate, by the search. `_partial`: for candidates as in `C61_mac_partial`. -/
theorem C62_mac_says_partial {K : Pbl F} {M : Str F D} (hS : Setting K M) {U : Uf F}
    (hmac : K.E.L.out U.mac = some .message) (hver : K.E.L.out U.verify = some .condition) {gr : Srt → Prop}
    {cs : List (Cand F)} (hcs : U.candidates K = some cs) {c : Cand F} (hcm : c ∈ cs)
    (hc : CandOK K M (U.main K) (U.key K) gr U.mac c) (hsg : K.E.L.sortOf c.signature = some .message)
    {axs : List (Fm F)} (h : U.preprocess K = some axs) {ρ : Valn D} (hax : ∀ φ ∈ axs, M.truth (Fm.eval M ρ φ))
    (hok : Dep.search (K.search (U.key K) false) K.fuel c.key .noRecMacro (topLevel K.steps K.cells ++ c.roots) = some [])
    {τ : Valn D} (hoff : ∀ i, ¬ K.outer c i → τ i = ρ i) (hu : τ (K.uId c) = ρ (K.uId c))
    (hd : InDom M (c.terms.flatMap Fm.vars) τ) (hdm : K.E.symbolic = false → M.dom .message (Fm.eval M τ c.message))
    (hacc : U.accepts K M (Fm.eval M τ c.signature) (Fm.eval M τ c.message) (M.fn K.cast [Fm.eval M τ c.key])) :
    ∃ d, M.dom .message d ∧ K.E.val M .message d = K.E.val M .message (Fm.eval M τ c.message) ∧
      ∃ res, Dep.search (K.search (U.main K) true) K.fuel (.app U.mac [.var (K.uVar c), .app K.cast [c.key]]) .all c.roots = some res ∧
        ∃ vs χ, some (vs, χ) ∈ res ∧ quantVal M .ex vs (fun κ => M.truth (Fm.eval M κ χ)) (τ.set (K.uId c) d) := by
  unfold Uf.preprocess at h
  rw [hcs, Option.bind_some] at h
  obtain ⟨l, hl, hlm⟩ := flatO_mem' h hcm
  have hok' : K.keyOk (U.key K) c = some true := by
    unfold Pbl.keyOk
    unfold Cand.roots at hok
    rw [hok]
  have hacc' : ∃ a, U.accept K c.signature c.message (.app K.cast [c.key]) = some a := by
    unfold Uf.accept
    split
    · obtain ⟨x, hx⟩ := eval_some hsg
      obtain ⟨y, hy⟩ := eval_some (sortOf_app hmac [c.message, .app K.cast [c.key]])
      exact ⟨_, by rw [hx, Option.bind_some, hy, Option.map_some]⟩
    · exact eval_some (sortOf_app hver _)
  obtain ⟨a, ha⟩ := hacc'
  refine instance_says hS (main := U.main K) (ufMain_shrinks _ _ _ _ _) hc hl hok' (fun φ hφ => hax φ (hlm φ hφ)) hoff hu hd hdm ha
    ((Uf.accept_val M hmac hver hS.logical.sem (fun _ => hsg) ha τ).2 ?_)
  simpa only [Fm.eval, evals] using hacc

omit [DecidableEq F] in
/-- **C61: the axiom of correctness.** It says exactly that a MAC is accepted for its message and key. -/
theorem C61_mac_correct {K : Pbl F} {M : Str F D} {U : Uf F} (hver : K.E.L.out U.verify = some .condition) {φ : Fm F}
    (h : U.baseAx K = some φ) (ρ : Valn D) : M.truth (Fm.eval M ρ φ) ↔ ∀ m k, M.dom .message m → M.dom .message k →
      M.truth (K.E.val M .condition (M.fn U.verify [M.fn U.mac [m, k], m, k])) := by
  simp only [Uf.baseAx, Option.map_eq_some_iff] at h
  obtain ⟨a, ha, rfl⟩ := h
  rw [truth_mkForall]
  have hv := fun τ => eval_val M (sortOf_app hver _) ha τ
  simp only [quantVal, hv, Fm.eval, evals]
  constructor
  · intro h m k hm hk
    exact h m hm k hk
  · intro h m hm k hk
    exact h m k hm hk

/-! ## Signatures -/

/-- SPECIFICATION. The parts of a term in which a key occurs otherwise than to sign or in a public key: all
arguments, except what follows the message of `sign`, or the argument of `pk`, when the key is (or may become,
being a variable) the cast of a name. -/
inductive SignPart (sign pk cast : F) : Fm F → Fm F → Prop
  | other {f args a} (h1 : f ≠ sign) (h2 : f ≠ pk) (h : a ∈ args) : SignPart sign pk cast (.app f args) a
  | signMsg {args a} (h : a ∈ args.take 1) : SignPart sign pk cast (.app sign args) a
  | signKey {args a g as} (hk : args[1]? = some (.app g as)) (hg : g ≠ cast) (h : a ∈ args) :
      SignPart sign pk cast (.app sign args) a
  | pkKey {args a g as} (hk : args[0]? = some (.app g as)) (hg : g ≠ cast) (h : a ∈ args) :
      SignPart sign pk cast (.app pk args) a

theorem eufKey_shrinks (sign pk cast : F) : Shrinks (Aux.eufKey sign pk cast) := by
  intro t a h
  cases t with
  | var v => simp [Aux.eufKey] at h
  | app f args =>
    have ha : a ∈ args := by
      simp only [Aux.eufKey] at h
      split at h
      · exact List.mem_of_mem_take h
      · split at h
        · cases h
        · exact h
    exact ⟨fun hn => hn.arg ha, fun _ hv => vars_arg ha hv⟩
  | quant q vs b =>
    simp only [Aux.eufKey, List.mem_singleton] at h
    subst h
    exact ⟨fun hn => (by cases hn), fun v hv => by simpa [Fm.vars] using hv⟩

theorem SignPart.down (sign pk cast : F) (hsp : sign ≠ pk) :
    Descends (Aux.eufKey sign pk cast) (SignPart sign pk cast) where
  var v a h := by cases h
  vars t a h v hv := by
    cases h with
    | other _ _ h => exact vars_arg h hv
    | signMsg h => exact vars_arg (List.mem_of_mem_take h) hv
    | signKey _ _ h => exact vars_arg h hv
    | pkKey _ _ h => exact vars_arg h hv
  down t a h := by
    refine .inr fun θ => ?_
    cases h with
    | @other f args _ h1 h2 h =>
      simp only [Aux.eufKey, Subst.apply, Subst.applys_eq, h1, h2, false_and, if_false]
      exact List.mem_map_of_mem h
    | @signMsg args _ h =>
      simp only [Aux.eufKey, Subst.apply, Subst.applys_eq, hsp, false_and, if_false, true_and]
      split
      · rw [← List.map_take]; exact List.mem_map_of_mem h
      · exact List.mem_map_of_mem (List.mem_of_mem_take h)
    | @signKey args _ g as hk hg h =>
      simp only [Aux.eufKey, Subst.apply, Subst.applys_eq, hsp, false_and, if_false, true_and, List.getElem?_map, hk,
        Option.map_some, Option.any_some, isApp, hg, decide_false, Bool.false_eq_true]
      exact List.mem_map_of_mem h
    | @pkKey args _ g as hk hg h =>
      simp only [Aux.eufKey, Subst.apply, Subst.applys_eq, Ne.symm hsp, false_and, if_false, true_and, List.getElem?_map, hk,
        Option.map_some, Option.any_some, isApp, hg, decide_false, Bool.false_eq_true]
      exact List.mem_map_of_mem h

/-- SPECIFICATION. A signature is accepted, with the public key of `k`. -/
def Euf.accepts (U : Euf F) (K : Pbl F) (M : Str F D) (s m k : D) : Prop :=
  M.truth (K.E.val M .condition (M.fn U.verify [s, m, M.fn U.pk [k]]))

/-- **C61: the instances generated for signatures are true.** In every structure in which signatures are
unforgeable, every axiom generated for the verifications found in the problem holds. `_partial`: as
`C61_mac_partial`. -/
theorem C61_signature_partial {K : Pbl F} {M : Str F D} (hS : Setting K M) {U : Euf F} (hsp : U.sign ≠ U.pk)
    (hsign : K.E.L.out U.sign = some .message) (hver : K.E.L.out U.verify = some .condition) {gr : Srt → Prop}
    (hun : Unforgeable K.E.L K.steps K.cells M (SignPart U.sign U.pk K.cast) ArgOf gr U.sign K.cast
      (U.accepts K M) (fun a b => K.E.val M .message a = K.E.val M .message b))
    {cs : List (Cand F)} (hcs : U.candidates K = some cs) (hc : ∀ c ∈ cs, CandOK K M U.main (U.key K) gr U.sign c)
    {axs : List (Fm F)} (h : U.preprocess K = some axs) (ρ : Valn D) (φ : Fm F) (hφ : φ ∈ axs) :
    M.truth (Fm.eval M ρ φ) := by
  unfold Euf.preprocess at h
  rw [hcs, Option.bind_some] at h
  obtain ⟨c, hcm, l, hl, hφ⟩ := flatO_mem h hφ
  refine instance_sound hS (key := U.key K) (main := U.main) (eufKey_shrinks _ _ _) (SignPart.down _ _ _ hsp) rfl
    (default_shrinks _) ArgOf.down ArgOf.proper rfl hsign hun (hc c hcm)
    (fun a ρ ha ht => ?_) hl ρ φ hφ
  unfold Euf.accept at ha
  rw [eval_val M (sortOf_app hver _) ha] at ht
  simp only [Fm.eval, evals] at ht
  exact ht

/-- **C62 for signatures: no verification is forgotten.** Every `verify(s, m, pk(k))`, with `k` the cast of a name,
written in a top-level term of the problem is a candidate (with its variables renumbered). -/
theorem C62_signature_found {K : Pbl F} {U : Euf F} {cs : List (Cand F)} (hcs : U.candidates K = some cs)
    {top : Fm F} (htop : top ∈ K.tops) {m s k : Fm F}
    (ht : Fm.app U.verify [s, m, .app U.pk [.app K.cast [k]]] ∈ top.subs) : CopyIn K.tops m s k cs := by
  refine copyIn_prepare ?_
  unfold Euf.candidates at hcs
  obtain ⟨l, hl, hcs⟩ := Option.bind_eq_some_iff.1 hcs
  obtain ⟨cs', hcs', rfl⟩ := Option.map_eq_some_iff.1 hcs
  rw [mem_uniq]
  refine List.mem_map_of_mem ?_
  obtain ⟨b, hb, hs⟩ := flatO_mem' hl htop
  have htl : Fm.app U.verify [s, m, .app U.pk [.app K.cast [k]]] ∈ l := by
    refine hs _ ?_
    obtain ⟨n, hn⟩ := C04_all_terms top
    obtain ⟨b', h1, h2⟩ := hn (max K.fuel n) (Nat.le_max_right ..)
    have := runPile_more _ _ _ _ _ _ hb (Nat.le_max_left K.fuel n)
    rw [show runPile allTermsIter (max K.fuel n) () [.next top ()] = some b' from h1] at this
    cases this
    exact h2.mem_iff.2 ht
  obtain ⟨r, hr, hsub⟩ := flatO_mem' hcs' htl
  have : U.found K (.app U.verify [s, m, .app U.pk [.app K.cast [k]]]) = some [⟨m, s, k⟩] := by
    simp [Euf.found, argsOf]
  rw [this] at hr
  cases hr
  exact hsub _ (List.mem_singleton_self _)

/-- **C62 for signatures: what the axioms say.** As `C62_mac_says_partial`. -/
theorem C62_signature_says_partial {K : Pbl F} {M : Str F D} (hS : Setting K M) {U : Euf F}
    (hver : K.E.L.out U.verify = some .condition) {gr : Srt → Prop}
    {cs : List (Cand F)} (hcs : U.candidates K = some cs) {c : Cand F} (hcm : c ∈ cs)
    (hc : CandOK K M U.main (U.key K) gr U.sign c)
    {axs : List (Fm F)} (h : U.preprocess K = some axs) {ρ : Valn D} (hax : ∀ φ ∈ axs, M.truth (Fm.eval M ρ φ))
    (hok : Dep.search (K.search (U.key K) false) K.fuel c.key .noRecMacro (topLevel K.steps K.cells ++ c.roots) = some [])
    {τ : Valn D} (hoff : ∀ i, ¬ K.outer c i → τ i = ρ i) (hu : τ (K.uId c) = ρ (K.uId c))
    (hd : InDom M (c.terms.flatMap Fm.vars) τ) (hdm : K.E.symbolic = false → M.dom .message (Fm.eval M τ c.message))
    (hacc : U.accepts K M (Fm.eval M τ c.signature) (Fm.eval M τ c.message) (M.fn K.cast [Fm.eval M τ c.key])) :
    ∃ d, M.dom .message d ∧ K.E.val M .message d = K.E.val M .message (Fm.eval M τ c.message) ∧
      ∃ res, Dep.search (K.search U.main true) K.fuel (.app U.sign [.var (K.uVar c), .app K.cast [c.key]]) .all c.roots = some res ∧
        ∃ vs χ, some (vs, χ) ∈ res ∧ quantVal M .ex vs (fun κ => M.truth (Fm.eval M κ χ)) (τ.set (K.uId c) d) := by
  unfold Euf.preprocess at h
  rw [hcs, Option.bind_some] at h
  obtain ⟨l, hl, hlm⟩ := flatO_mem' h hcm
  have hok' : K.keyOk (U.key K) c = some true := by
    unfold Pbl.keyOk
    unfold Cand.roots at hok
    rw [hok]
  obtain ⟨a, ha⟩ : ∃ a, U.accept K c.signature c.message (.app K.cast [c.key]) = some a := eval_some (sortOf_app hver _)
  refine instance_says hS (main := U.main) (default_shrinks _) hc hl hok' (fun φ hφ => hax φ (hlm φ hφ)) hoff hu hd hdm ha ?_
  rw [eval_val M (sortOf_app hver _) ha]
  simp only [Fm.eval, evals]
  exact hacc

/-! ## The axioms over all messages -/

omit [DecidableEq F] in
theorem subFormula_var {L : Lang F} {M : Str F D} {sym : Option Srt → Option F} {f : F} {x : Fm F} {v : Var} {φ : Fm F}
    (hf : sym (some v.sort) = some f) (h : subFormula L true sym x (.var v) = some φ) (ρ : Valn D) :
    Fm.eval M ρ φ = M.fn f [Fm.eval M ρ x, ρ v.id] := by
  simp only [subFormula, if_true, sortOf_var, hf, Option.map_some, Option.some.injEq] at h
  subst h
  simp only [Fm.eval, evals]

omit [DecidableEq F] in
/-- **C27: what the axiom over all messages says.** For all `a`, `b` and every name `k`: if `verify(a, b, key(k))` is
accepted then some `u` evaluates **as `a`** (that is: as what stands in the place of the signature), and the tag of
`u` occurs in `a` or `b`, or the key does, or the key is in the protocol. -/
theorem C27_general_says {K : Pbl F} {M : Str F D} (hl : Logical K.E M)
    (hor : ∀ a b, M.truth (M.fn K.E.L.or [a, b]) ↔ M.truth a ∨ M.truth b) {main key : Sub F} {tag verify split ms ks : F}
    {vk : Fm F → Fm F} {dk : D → D} (hvk : ∀ t ρ, Fm.eval M ρ (vk t) = dk (Fm.eval M ρ t))
    (hver : K.E.L.out verify = some .condition) (hms : main.sound = true) (hks : key.sound = true)
    (hm : main.sym (some .message) = some ms) (hk : key.sym (some .message) = some ks) {φ : Fm F}
    (h : K.generalAx main key tag verify split vk = some φ) (ρ : Valn D) :
    M.truth (Fm.eval M ρ φ) ↔ ∀ a b k, M.dom .message a → M.dom .message b → M.dom .name k →
      M.truth (K.E.val M .condition (M.fn verify [a, b, dk (M.fn K.cast [k])])) →
      ∃ u, M.dom .message u ∧ K.E.val M .message u = K.E.val M .message a ∧
        (M.truth (M.fn ms [M.fn tag [u, M.fn K.cast [k]], a]) ∨ M.truth (M.fn ms [M.fn tag [u, M.fn K.cast [k]], b]) ∨
          M.truth (M.fn ks [k, a]) ∨ M.truth (M.fn ks [k, b]) ∨ M.truth (M.fn split [k])) := by
  unfold Pbl.generalAx at h
  simp only [hms, hks] at h
  split at h
  swap
  · cases h
  rename_i a eu em f1 f2 f3 f4 ha heu hem h1 h2 h3 h4
  simp only [Option.some.injEq] at h
  subst h
  have e1 := subFormula_var (M := M) hm h1
  have e2 := subFormula_var (M := M) hm h2
  have e3 := subFormula_var (M := M) hk h3
  have e4 := subFormula_var (M := M) hk h4
  have ea := eval_val M (sortOf_app hver _) ha
  have eu := eval_val M (sortOf_var _ _) heu
  have em := eval_val M (sortOf_var _ _) hem
  have two : ∀ x y : D, M.truth (M.fn K.E.L.and [x, y]) ↔ M.truth x ∧ M.truth y := by
    intro x y
    rw [hl.sem.and]
    simp
  have set_ne : ∀ (τ : Valn D) (i j : Nat) (d : D), j ≠ i → τ.set i d j = τ j := fun τ i j d h => Valn.set_ne _ _ h
  rw [truth_mkForall]
  simp only [quantVal, Fm.eval, evals, hl.imp, truth_mkExists, two, hor, Lang.meq, hl.sem.eq, e1, e2, e3, e4, ea, eu, em,
    Valn.set_self, hvk, set_ne, ne_eq, not_false_eq_true, Nat.reduceEqDiff, or_assoc]
  constructor
  · intro h a b k ha hb hk' hacc
    exact h a ha b hb k hk' hacc
  · intro h a ha b hb k hk' hacc
    exact h a b k ha hb hk' hacc

end
end Cry
end CV
