import Verif.Deps
import Verif.Piles
import Verif.SubstProps
import Mathlib.Logic.Relation
set_option linter.unusedSimpArgs false
/-
Properties C28 and C29 of `Verif/Deps.lean`.
-/
namespace CV
namespace Dep
variable {F : Type}

/-! ### Specification -/

/-- What a formula may depend on: the input, or a memory cell (by its identity). -/
inductive Node
  | input
  | cell (fid : Nat)
  deriving DecidableEq

/-- The formula `t` calls `n`: somewhere in it, in the message or condition of a step it names, or in the
body of a quantifier symbol it uses. -/
inductive Mentions (kind : F → Kind F) : Fm F → Node → Prop
  | cell {f c args} (h : kind f = .cell c) : Mentions kind (.app f args) (.cell c.fid)
  | input {f args} (h : kind f = .mac .input) : Mentions kind (.app f args) .input
  | msg {f g s as n} (h : kind f = .mac .msg) (hg : kind g = .step s) (hm : Mentions kind s.message n) :
      Mentions kind (.app f [.app g as]) n
  | cond {f g s as n} (h : kind f = .mac .cond) (hg : kind g = .step s) (hm : Mentions kind s.condition n) :
      Mentions kind (.app f [.app g as]) n
  | arg {f args a n} (ha : a ∈ args) (hm : Mentions kind a n) : Mentions kind (.app f args) n
  | body {q vs b n} (hm : Mentions kind b n) : Mentions kind (.quant q vs b) n
  | taq {f b fr cs c args n} (h : kind f = .taq b fr cs) (hc : c ∈ cs) (hm : Mentions kind c n) :
      Mentions kind (.app f args) n

/-- The same without looking at the arguments of cells and macros and into the bodies of quantifier
symbols. -/
inductive Seen (kind : F → Kind F) : Fm F → Node → Prop
  | cell {f c args} (h : kind f = .cell c) : Seen kind (.app f args) (.cell c.fid)
  | input {f args} (h : kind f = .mac .input) : Seen kind (.app f args) .input
  | msg {f g s as n} (h : kind f = .mac .msg) (hg : kind g = .step s) (hm : Seen kind s.message n) :
      Seen kind (.app f [.app g as]) n
  | cond {f g s as n} (h : kind f = .mac .cond) (hg : kind g = .step s) (hm : Seen kind s.condition n) :
      Seen kind (.app f [.app g as]) n
  | arg {f args a n} (hf : kind f = .plain ∨ ∃ b fr cs, kind f = .taq b fr cs) (ha : a ∈ args)
      (hm : Seen kind a n) : Seen kind (.app f args) n
  | body {q vs b n} (hm : Seen kind b n) : Seen kind (.quant q vs b) n

/-- A term built from plain symbols and variables that do not stand for time points. -/
inductive Silent (kind : F → Kind F) : Fm F → Prop
  | var {v} (h : v.sort ≠ .step) : Silent kind (.var v)
  | app {f args} (h : kind f = .plain) (ha : ∀ a ∈ args, Silent kind a) : Silent kind (.app f args)
  | quant {q vs b} (hb : Silent kind b) : Silent kind (.quant q vs b)

/-- A formula the scan accepts: no variable standing for a time point, cells of the list, macros applied to
steps with the right number of arguments (in which there is no call), no `exec`; and following the messages
and conditions of the steps it names always ends. -/
inductive Clean (kind : F → Kind F) (cells : List (GCell F)) : Fm F → Prop
  | var {v} (h : v.sort ≠ .step) : Clean kind cells (.var v)
  | cell {f c args} (h : kind f = .cell c) (ha : args ≠ []) (hc : ∃ c' ∈ cells, c'.fid = c.fid) :
      Clean kind cells (.app f args)
  | input {f g s as} (h : kind f = .mac .input) (hg : kind g = .step s) : Clean kind cells (.app f [.app g as])
  | msg {f g s as} (h : kind f = .mac .msg) (hg : kind g = .step s) (hl : as.length = s.vars.length)
      (has : ∀ a ∈ as, Silent kind a) (hm : Clean kind cells s.message) : Clean kind cells (.app f [.app g as])
  | cond {f g s as} (h : kind f = .mac .cond) (hg : kind g = .step s) (hl : as.length = s.vars.length)
      (has : ∀ a ∈ as, Silent kind a) (hm : Clean kind cells s.condition) : Clean kind cells (.app f [.app g as])
  | other {f args} (hf : kind f = .plain ∨ ∃ b fr cs, kind f = .taq b fr cs)
      (ha : ∀ a ∈ args, Clean kind cells a) : Clean kind cells (.app f args)
  | quant {q vs b} (hb : Clean kind cells b) : Clean kind cells (.quant q vs b)

theorem Seen.mentions {kind : F → Kind F} {t : Fm F} {n : Node} (h : Seen kind t n) : Mentions kind t n := by
  induction h with
  | cell h => exact .cell h
  | input h => exact .input h
  | msg h hg _ ih => exact .msg h hg ih
  | cond h hg _ ih => exact .cond h hg ih
  | arg _ ha _ ih => exact .arg ha ih
  | body _ ih => exact .body ih

/-! ### Substituting terms without calls -/

section subst
variable {kind : F → Kind F} {cells : List (GCell F)} {σ : Subst F}

theorem Silent.clean {t : Fm F} (h : Silent kind t) : Clean kind cells t := by
  induction h with
  | var h => exact .var h
  | app h _ ih => exact .other (.inl h) ih
  | quant _ ih => exact .quant ih

theorem Silent.not_seen {t : Fm F} (h : Silent kind t) (n : Node) : ¬ Seen kind t n := by
  induction h with
  | var h => intro hn; cases hn
  | app h _ ih =>
    intro hn
    cases hn with
    | cell hk => rw [h] at hk; cases hk
    | input hk => rw [h] at hk; cases hk
    | msg hk => rw [h] at hk; cases hk
    | cond hk => rw [h] at hk; cases hk
    | arg _ ha hm => exact ih _ ha hm
  | quant _ ih => intro hn; cases hn with | body hm => exact ih hm

theorem Silent.subst {t : Fm F} (h : Silent kind t) (hσ : ∀ v, v.sort ≠ .step → Silent kind (σ v)) :
    Silent kind (Subst.apply σ t) := by
  induction h with
  | var h => exact hσ _ h
  | app h _ ih =>
    rw [Subst.apply, Subst.applys_eq]
    refine .app h ?_
    intro a ha
    obtain ⟨b, hb, rfl⟩ := List.mem_map.1 ha
    exact ih b hb
  | quant _ ih => exact .quant ih

theorem Clean.subst {t : Fm F} (h : Clean kind cells t) (hσ : ∀ v, v.sort ≠ .step → Silent kind (σ v)) :
    Clean kind cells (Subst.apply σ t) := by
  induction h with
  | var h => exact (hσ _ h).clean
  | cell h ha hc =>
    rw [Subst.apply, Subst.applys_eq]
    exact .cell h (by simpa using ha) hc
  | input h hg =>
    simp only [Subst.apply, Subst.applys]
    exact .input h hg
  | msg h hg hl has hm =>
    simp only [Subst.apply, Subst.applys, Subst.applys_eq]
    refine .msg h hg (by simpa using hl) ?_ hm
    intro a ha
    obtain ⟨b, hb, rfl⟩ := List.mem_map.1 ha
    exact (has b hb).subst hσ
  | cond h hg hl has hm =>
    simp only [Subst.apply, Subst.applys, Subst.applys_eq]
    refine .cond h hg (by simpa using hl) ?_ hm
    intro a ha
    obtain ⟨b, hb, rfl⟩ := List.mem_map.1 ha
    exact (has b hb).subst hσ
  | other hf _ ih =>
    rw [Subst.apply, Subst.applys_eq]
    refine .other hf ?_
    intro a ha
    obtain ⟨b, hb, rfl⟩ := List.mem_map.1 ha
    exact ih b hb
  | quant _ ih => exact .quant ih

theorem seen_subst {t : Fm F} (h : Clean kind cells t) (hσ : ∀ v, v.sort ≠ .step → Silent kind (σ v)) (n : Node) :
    Seen kind (Subst.apply σ t) n ↔ Seen kind t n := by
  induction h with
  | var h =>
    exact ⟨fun hn => absurd hn ((hσ _ h).not_seen n), fun hn => by cases hn⟩
  | @cell f c args h ha hc =>
    rw [Subst.apply, Subst.applys_eq]
    have key : ∀ args, Seen kind (.app f args) n ↔ n = .cell c.fid := by
      intro args
      constructor
      · intro hn
        cases hn with
        | cell hk => rw [h] at hk; cases hk; rfl
        | input hk => rw [h] at hk; cases hk
        | msg hk => rw [h] at hk; cases hk
        | cond hk => rw [h] at hk; cases hk
        | arg hk => rw [h] at hk; rcases hk with hk | ⟨_, _, _, hk⟩ <;> cases hk
      · rintro rfl; exact .cell h
    rw [key, key]
  | @input f g s as h hg =>
    simp only [Subst.apply, Subst.applys]
    have key : ∀ args, Seen kind (.app f args) n ↔ n = .input := by
      intro args
      constructor
      · intro hn
        cases hn with
        | cell hk => rw [h] at hk; cases hk
        | input hk => rfl
        | msg hk => rw [h] at hk; cases hk
        | cond hk => rw [h] at hk; cases hk
        | arg hk => rw [h] at hk; rcases hk with hk | ⟨_, _, _, hk⟩ <;> cases hk
      · rintro rfl; exact .input h
    rw [key, key]
  | @msg f g s as h hg hl has hm ih =>
    simp only [Subst.apply, Subst.applys]
    have key : ∀ as, Seen kind (.app f [.app g as]) n ↔ Seen kind s.message n := by
      intro as
      constructor
      · intro hn
        cases hn with
        | cell hk => rw [h] at hk; cases hk
        | input hk => rw [h] at hk; cases hk
        | msg hk hg' hm => rw [hg] at hg'; cases hg'; exact hm
        | cond hk => rw [h] at hk; cases hk
        | arg hk => rw [h] at hk; rcases hk with hk | ⟨_, _, _, hk⟩ <;> cases hk
      · intro hn; exact .msg h hg hn
    rw [key, key]
  | @cond f g s as h hg hl has hm ih =>
    simp only [Subst.apply, Subst.applys]
    have key : ∀ as, Seen kind (.app f [.app g as]) n ↔ Seen kind s.condition n := by
      intro as
      constructor
      · intro hn
        cases hn with
        | cell hk => rw [h] at hk; cases hk
        | input hk => rw [h] at hk; cases hk
        | msg hk => rw [h] at hk; cases hk
        | cond hk hg' hm => rw [hg] at hg'; cases hg'; exact hm
        | arg hk => rw [h] at hk; rcases hk with hk | ⟨_, _, _, hk⟩ <;> cases hk
      · intro hn; exact .cond h hg hn
    rw [key, key]
  | @other f args hf _ ih =>
    rw [Subst.apply, Subst.applys_eq]
    have key : ∀ args, Seen kind (.app f args) n ↔ ∃ a ∈ args, Seen kind a n := by
      intro args
      constructor
      · intro hn
        cases hn with
        | cell hk => rcases hf with hf | ⟨_, _, _, hf⟩ <;> rw [hf] at hk <;> cases hk
        | input hk => rcases hf with hf | ⟨_, _, _, hf⟩ <;> rw [hf] at hk <;> cases hk
        | msg hk => rcases hf with hf | ⟨_, _, _, hf⟩ <;> rw [hf] at hk <;> cases hk
        | cond hk => rcases hf with hf | ⟨_, _, _, hf⟩ <;> rw [hf] at hk <;> cases hk
        | arg hk ha hm => exact ⟨_, ha, hm⟩
      · rintro ⟨a, ha, hm⟩; exact .arg hf ha hm
    rw [key, key]
    constructor
    · rintro ⟨a, ha, hm⟩
      obtain ⟨b, hb, rfl⟩ := List.mem_map.1 ha
      exact ⟨b, hb, (ih b hb).1 hm⟩
    · rintro ⟨a, ha, hm⟩
      exact ⟨_, List.mem_map_of_mem ha, (ih a ha).2 hm⟩
  | quant _ ih =>
    rw [Subst.apply]
    constructor
    · intro hn; cases hn with | body hm => exact .body (ih.1 hm)
    · intro hn; cases hn with | body hm => exact .body (ih.2 hm)

theorem silent_get {vs : List Nat} {as : List (Fm F)} (h : ∀ a ∈ as, Silent kind a) (v : Var) (hv : v.sort ≠ .step) :
    Silent kind (MSubst.get (vs.zip as) v) := by
  unfold MSubst.get MSubst.maybeGet
  cases hf : (vs.zip as).find? (fun p => p.1 == v.id) with
  | none => simpa using .var hv
  | some p =>
    have := List.mem_of_find?_eq_some hf
    simpa using h p.2 (List.of_mem_zip this).2

end subst

/-! ### The scan of one formula -/

section scan
variable {kind : F → Kind F} {cells : List (GCell F)}

/-- The node `d` of the graph is what the specification calls `n`. -/
def Denotes (cells : List (GCell F)) : ToNode → Node → Prop
  | .input, n => n = .input
  | .cell i, n => ∃ c, cells[i]? = some c ∧ n = .cell c.fid ∧ ∀ j c', j < i → cells[j]? = some c' → c'.fid ≠ c.fid

/-- What the scan of a formula gives. -/
def ScanOK (kind : F → Kind F) (cells : List (GCell F)) (t : Fm F) (sees : Node → Prop) : Prop :=
  Finishes (toNodeIter kind cells) (.next t ()) ∧ ¬ Reach (toNodeIter kind cells) t () none ∧
  ∀ d, Reach (toNodeIter kind cells) t () (some d) ↔ ∃ n, Denotes cells d n ∧ sees n

theorem position_spec {c : GCell F} (hc : ∃ c' ∈ cells, c'.fid = c.fid) :
    ∃ i, position cells c = some i ∧ ∀ n, Denotes cells (.cell i) n ↔ n = .cell c.fid := by
  unfold position
  cases h : cells.findIdx? (fun g => g.fid == c.fid) with
  | none =>
    rw [List.findIdx?_eq_none_iff] at h
    obtain ⟨c', hc', e⟩ := hc
    have := h c' hc'
    simp [e] at this
  | some i =>
    rw [List.findIdx?_eq_some_iff_getElem] at h
    obtain ⟨hi, h1, h2⟩ := h
    refine ⟨i, rfl, fun n => ?_⟩
    have e : cells[i].fid = c.fid := by simpa using h1
    constructor
    · rintro ⟨c', hc', rfl, _⟩
      rw [List.getElem?_eq_getElem hi] at hc'
      cases hc'
      rw [e]
    · rintro rfl
      refine ⟨cells[i], List.getElem?_eq_getElem hi, by rw [e], ?_⟩
      intro j c' hj hc'
      have hj' : j < cells.length := by omega
      rw [List.getElem?_eq_getElem hj'] at hc'
      cases hc'
      have := h2 j hj
      rw [e]
      simpa using this

theorem denotes_fid {d : ToNode} {i : Nat} {c : GCell F} (hd : Denotes cells d (.cell c.fid)) (h : position cells c = some i) :
    d = .cell i := by
  cases d with
  | input => cases hd
  | cell j =>
    obtain ⟨c', hc', e, hmin⟩ := hd
    simp only [Node.cell.injEq] at e
    unfold position at h
    rw [List.findIdx?_eq_some_iff_getElem] at h
    obtain ⟨hi, h1, h2⟩ := h
    have h1' : cells[i].fid = c.fid := by simpa using h1
    obtain ⟨hj, ej⟩ := List.getElem?_eq_some_iff.1 hc'
    rcases Nat.lt_trichotomy i j with hlt | heq | hgt
    · exact absurd (h1'.trans e) (hmin i cells[i] hlt (List.getElem?_eq_getElem hi))
    · rw [heq]
    · have := h2 j hgt
      rw [ej, ← e] at this
      simp at this

theorem scanOK_leaf {t : Fm F} {d : ToNode} {n : Node}
    (hv : toNodeVisit kind cells t = [.result (some d)]) (hd : ∀ d', Denotes cells d' n ↔ d' = d)
    {sees : Node → Prop} (hs : ∀ m, sees m ↔ m = n) : ScanOK kind cells t sees := by
  refine ⟨finishes_next _ _ _ ?_, ?_, ?_⟩
  · intro g q hg; simp [toNodeIter, hv] at hg
  · rw [reach_iff]; simp [toNodeIter, hv, ReachC]
  · intro d'
    rw [reach_iff]
    simp only [toNodeIter, hv, ReachC, List.mem_singleton, exists_eq_left, Option.some.injEq]
    constructor
    · rintro rfl; exact ⟨n, (hd d).2 rfl, (hs n).2 rfl⟩
    · rintro ⟨m, hm, hsm⟩
      rw [(hs m).1 hsm] at hm
      exact ((hd d').1 hm).symm

theorem scanOK_children {t : Fm F} {l : List (Fm F)} (hv : toNodeVisit kind cells t = l.map (fun a => .next a ()))
    {sees : Node → Prop} {sees' : Fm F → Node → Prop} (h : ∀ a ∈ l, ScanOK kind cells a (sees' a))
    (hs : ∀ m, sees m ↔ ∃ a ∈ l, sees' a m) : ScanOK kind cells t sees := by
  have hr : ∀ u, Reach (toNodeIter kind cells) t () u ↔ ∃ a ∈ l, Reach (toNodeIter kind cells) a () u := by
    intro u
    rw [reach_iff]
    simp only [toNodeIter, hv, List.mem_map]
    constructor
    · rintro ⟨c, ⟨a, ha, rfl⟩, h⟩; exact ⟨a, ha, h⟩
    · rintro ⟨a, ha, h⟩; exact ⟨_, ⟨a, ha, rfl⟩, h⟩
  refine ⟨finishes_next _ _ _ ?_, ?_, ?_⟩
  · intro g q hg
    simp only [toNodeIter, hv, List.mem_map, Content.next.injEq] at hg
    obtain ⟨a, ha, rfl, _⟩ := hg
    exact (h a ha).1
  · rw [hr]; rintro ⟨a, ha, h'⟩; exact (h a ha).2.1 h'
  · intro d
    rw [hr]
    constructor
    · rintro ⟨a, ha, h'⟩
      obtain ⟨n, hn, hsn⟩ := ((h a ha).2.2 d).1 h'
      exact ⟨n, hn, (hs n).2 ⟨a, ha, hsn⟩⟩
    · rintro ⟨n, hn, hsn⟩
      obtain ⟨a, ha, h'⟩ := (hs n).1 hsn
      exact ⟨a, ha, ((h a ha).2.2 d).2 ⟨n, hn, h'⟩⟩

theorem Silent.scan {t : Fm F} (h : Silent kind t) : ScanOK kind cells t (fun _ => False) := by
  induction h with
  | var h => exact scanOK_children (l := []) (sees' := fun _ _ => False) (by simp [toNodeVisit, h]) (by simp) (by simp)
  | @app f args h _ ih =>
    exact scanOK_children (l := args) (sees' := fun _ _ => False) (by simp [toNodeVisit, h]) ih (by simp)
  | @quant q vs b _ ih =>
    exact scanOK_children (l := [b]) (sees' := fun _ _ => False) (by simp [toNodeVisit]) (by simpa using ih) (by simp)

theorem denotes_input (d : ToNode) : Denotes cells d .input ↔ d = .input := by
  cases d with
  | input => simp [Denotes]
  | cell i => simp [Denotes]

theorem Clean.scan {t : Fm F} (h : Clean kind cells t) : ∀ σ : Subst F, (∀ v, v.sort ≠ .step → Silent kind (σ v)) →
    ScanOK kind cells (Subst.apply σ t) (Seen kind t) := by
  induction h with
  | @var v h =>
    intro σ hσ
    have := (hσ v h).scan (cells := cells)
    refine ⟨this.1, this.2.1, fun d => ?_⟩
    rw [Subst.apply, this.2.2 d]
    constructor
    · rintro ⟨_, _, h⟩; exact h.elim
    · rintro ⟨n, _, h⟩; cases h
  | @cell f c args h ha hc =>
    intro σ hσ
    obtain ⟨i, hi, hd⟩ := position_spec hc
    refine scanOK_leaf (d := .cell i) (n := .cell c.fid) ?_ ?_ ?_
    · have : (Subst.applys σ args).isEmpty = false := by
        rw [Subst.applys_eq]; cases args with
        | nil => exact absurd rfl ha
        | cons a l => rfl
      simp [Subst.apply, toNodeVisit, h, this, hi]
    · intro d'
      exact ⟨fun hh => denotes_fid hh hi, fun e => by rw [e]; exact (hd _).2 rfl⟩
    · intro m
      constructor
      · intro hn
        cases hn with
        | cell hk => rw [h] at hk; cases hk; rfl
        | input hk => rw [h] at hk; cases hk
        | msg hk => rw [h] at hk; cases hk
        | cond hk => rw [h] at hk; cases hk
        | arg hk => rw [h] at hk; rcases hk with hk | ⟨_, _, _, hk⟩ <;> cases hk
      · rintro rfl; exact .cell h
  | @input f g s as h hg =>
    intro σ hσ
    refine scanOK_leaf (d := .input) (n := .input) ?_ denotes_input ?_
    · simp [Subst.apply, Subst.applys, toNodeVisit, h, hg]
    · intro m
      constructor
      · intro hn
        cases hn with
        | cell hk => rw [h] at hk; cases hk
        | input hk => rfl
        | msg hk => rw [h] at hk; cases hk
        | cond hk => rw [h] at hk; cases hk
        | arg hk => rw [h] at hk; rcases hk with hk | ⟨_, _, _, hk⟩ <;> cases hk
      · rintro rfl; exact .input h
  | @msg f g s as h hg hl has hm ih =>
    intro σ hσ
    have hl' : ((List.range s.vars.length).map (· + 1)).length = (as.map (Subst.apply σ)).length := by simp [hl]
    have happ : s.applyMessage (as.map (Subst.apply σ)) = some (Subst.apply
        (MSubst.get (((List.range s.vars.length).map (· + 1)).zip (as.map (Subst.apply σ)))) s.message) :=
      C01_apply_substitution _ _ hl' _
    refine scanOK_children (l := [_]) (sees' := fun _ => Seen kind s.message)
      (by simp [Subst.apply, Subst.applys, Subst.applys_eq, toNodeVisit, h, hg, happ]; rfl) ?_ ?_
    · intro a ha
      rw [List.mem_singleton.1 ha]
      apply ih
      apply silent_get
      intro a ha
      obtain ⟨b, hb, rfl⟩ := List.mem_map.1 ha
      exact (has b hb).subst hσ
    · intro m
      simp only [List.mem_singleton, exists_eq_left]
      constructor
      · intro hn
        cases hn with
        | cell hk => rw [h] at hk; cases hk
        | input hk => rw [h] at hk; cases hk
        | msg hk hg' hm => rw [hg] at hg'; cases hg'; exact hm
        | cond hk => rw [h] at hk; cases hk
        | arg hk => rw [h] at hk; rcases hk with hk | ⟨_, _, _, hk⟩ <;> cases hk
      · intro hn; exact .msg h hg hn
  | @cond f g s as h hg hl has hm ih =>
    intro σ hσ
    have hl' : ((List.range s.vars.length).map (· + 1)).length = (as.map (Subst.apply σ)).length := by simp [hl]
    have happ : s.applyCondition (as.map (Subst.apply σ)) = some (Subst.apply
        (MSubst.get (((List.range s.vars.length).map (· + 1)).zip (as.map (Subst.apply σ)))) s.condition) :=
      C01_apply_substitution _ _ hl' _
    refine scanOK_children (l := [_]) (sees' := fun _ => Seen kind s.condition)
      (by simp [Subst.apply, Subst.applys, Subst.applys_eq, toNodeVisit, h, hg, happ]; rfl) ?_ ?_
    · intro a ha
      rw [List.mem_singleton.1 ha]
      apply ih
      apply silent_get
      intro a ha
      obtain ⟨b, hb, rfl⟩ := List.mem_map.1 ha
      exact (has b hb).subst hσ
    · intro m
      simp only [List.mem_singleton, exists_eq_left]
      constructor
      · intro hn
        cases hn with
        | cell hk => rw [h] at hk; cases hk
        | input hk => rw [h] at hk; cases hk
        | msg hk => rw [h] at hk; cases hk
        | cond hk hg' hm => rw [hg] at hg'; cases hg'; exact hm
        | arg hk => rw [h] at hk; rcases hk with hk | ⟨_, _, _, hk⟩ <;> cases hk
      · intro hn; exact .cond h hg hn
  | @other f args hf _ ih =>
    intro σ hσ
    have hv : toNodeVisit kind cells (.app f (args.map (Subst.apply σ))) =
        args.map (fun a => .next (Subst.apply σ a) ()) := by
      rcases hf with hf | ⟨b, fr, cs, hf⟩ <;> simp [toNodeVisit, hf, Function.comp_def]
    have hr : ∀ u, Reach (toNodeIter kind cells) (Subst.apply σ (.app f args)) () u ↔
        ∃ a ∈ args, Reach (toNodeIter kind cells) (Subst.apply σ a) () u := by
      intro u
      rw [reach_iff]
      simp only [Subst.apply, Subst.applys_eq, toNodeIter, hv, List.mem_map]
      constructor
      · rintro ⟨c, ⟨a, ha, rfl⟩, h⟩; exact ⟨a, ha, h⟩
      · rintro ⟨a, ha, h⟩; exact ⟨_, ⟨a, ha, rfl⟩, h⟩
    have hs : ∀ n, Seen kind (.app f args) n ↔ ∃ a ∈ args, Seen kind a n := by
      intro n
      constructor
      · intro hn
        cases hn with
        | cell hk => rcases hf with hf | ⟨_, _, _, hf⟩ <;> rw [hf] at hk <;> cases hk
        | input hk => rcases hf with hf | ⟨_, _, _, hf⟩ <;> rw [hf] at hk <;> cases hk
        | msg hk => rcases hf with hf | ⟨_, _, _, hf⟩ <;> rw [hf] at hk <;> cases hk
        | cond hk => rcases hf with hf | ⟨_, _, _, hf⟩ <;> rw [hf] at hk <;> cases hk
        | arg hk ha hm => exact ⟨_, ha, hm⟩
      · rintro ⟨a, ha, hm⟩; exact .arg hf ha hm
    refine ⟨finishes_next _ _ _ ?_, ?_, ?_⟩
    · intro g q hg
      simp only [Subst.apply, Subst.applys_eq, toNodeIter, hv, List.mem_map, Content.next.injEq] at hg
      obtain ⟨a, ha, rfl, _⟩ := hg
      exact (ih a ha σ hσ).1
    · rw [hr]; rintro ⟨a, ha, h'⟩; exact (ih a ha σ hσ).2.1 h'
    · intro d
      rw [hr]
      constructor
      · rintro ⟨a, ha, h'⟩
        obtain ⟨n, hn, hsn⟩ := ((ih a ha σ hσ).2.2 d).1 h'
        exact ⟨n, hn, (hs n).2 ⟨a, ha, hsn⟩⟩
      · rintro ⟨n, hn, hsn⟩
        obtain ⟨a, ha, h'⟩ := (hs n).1 hsn
        exact ⟨a, ha, ((ih a ha σ hσ).2.2 d).2 ⟨n, hn, h'⟩⟩
  | @quant q vs b _ ih =>
    intro σ hσ
    refine scanOK_children (l := [Subst.apply σ b]) (sees' := fun _ => Seen kind b) (by simp [Subst.apply, toNodeVisit]) ?_ ?_
    · intro a ha; rw [List.mem_singleton.1 ha]; exact ih σ hσ
    · intro m
      simp only [List.mem_singleton, exists_eq_left]
      constructor
      · intro hn; cases hn with | body hm => exact hm
      · intro hn; exact .body hn

theorem toNodes_ok {t : Fm F} (h : Clean kind cells t) : ∃ N l, (∀ fuel, N ≤ fuel → toNodes kind cells fuel t = some l) ∧
    (∀ o ∈ l, o.isSome = true) ∧ ∀ d, some d ∈ l ↔ ∃ n, Denotes cells d n ∧ Seen kind t n := by
  have := h.scan (fun v => .var v) (fun v hv => .var hv)
  rw [apply_id] at this
  obtain ⟨⟨N, l, hl⟩, h1, h2⟩ := this
  refine ⟨N, l, fun fuel hf => runPile_mono _ N fuel _ l hl hf, ?_, fun d => ?_⟩
  · intro o ho
    cases o with
    | some d => rfl
    | none => exact absurd ((runPile_one _ _ _ _ _ _ hl).1 ho) h1
  · rw [runPile_one _ _ _ _ _ _ hl, h2]

theorem scanAll_ok (l : List (FromNode × Fm F)) (h : ∀ p ∈ l, Clean kind cells p.2) :
    ∃ N es, (∀ fuel, N ≤ fuel → scanAll kind cells fuel l = some (some es)) ∧
      ∀ e : Edge, e ∈ es ↔ ∃ p ∈ l, e.src = p.1 ∧ ∃ n, Denotes cells e.dst n ∧ Seen kind p.2 n := by
  induction l with
  | nil => exact ⟨0, [], by simp [scanAll], by simp⟩
  | cons p l ih =>
    obtain ⟨fr, t⟩ := p
    obtain ⟨N, ns, h1, h2, h3⟩ := toNodes_ok (h (fr, t) (List.mem_cons_self ..))
    obtain ⟨M, es, h4, h5⟩ := ih (fun p hp => h p (List.mem_cons_of_mem _ hp))
    refine ⟨max N M, ns.filterMap (fun n => n.map (fun n => ⟨fr, n⟩)) ++ es, ?_, ?_⟩
    · intro fuel hf
      have ha : ns.all Option.isSome = true := List.all_eq_true.2 h2
      simp [scanAll, h1 fuel (by omega), h4 fuel (by omega), ha]
    · intro e
      simp only [List.mem_append, h5 e, List.mem_filterMap, List.mem_cons, exists_eq_or_imp, Option.map_eq_some_iff]
      constructor
      · rintro (⟨o, ho, d, rfl, rfl⟩ | hh)
        · exact .inl ⟨rfl, (h3 d).1 ho⟩
        · exact .inr hh
      · rintro (⟨rfl, hh⟩ | hh)
        · exact .inl ⟨some e.dst, (h3 _).2 hh, e.dst, rfl, rfl⟩
        · exact .inr hh

end scan

/-! ### The search in the graph -/

section dfs

/-- What remains to be pushed at most. -/
def todo (nx : Nat → List Nat) (k : Nat) : List Bool → Nat
  | [] => 0
  | b :: bs => (if b then 0 else (nx k).length) + todo nx (k + 1) bs

theorem todo_set (nx : Nat → List Nat) (vis : List Bool) : ∀ (k i : Nat), vis[i]? = some false →
    todo nx k (vis.set i true) + (nx (k + i)).length = todo nx k vis := by
  induction vis with
  | nil => intro k i h; simp at h
  | cons b bs ih =>
    intro k i h
    cases i with
    | zero => simp at h; subst h; simp [todo]; omega
    | succ i =>
      simp only [List.getElem?_cons_succ] at h
      have := ih (k + 1) i h
      simp only [List.set_cons_succ, todo]
      have e : k + 1 + i = k + (i + 1) := by omega
      rw [e] at this
      omega

theorem dfs_spec (g : Graph F) (L : Nat) (nx : Nat → List Nat)
    (hnx : ∀ i, i ≤ L → g.next i = (nx i).map some) (hb : ∀ i, i ≤ L → ∀ j ∈ nx i, j ≤ L)
    (seeds : List Nat) (R : Nat → Prop) (hR : ∀ i, R i → ∀ j ∈ nx i, R j) :
    ∀ (n : Nat) (vis : List Bool) (st : List Nat), vis.length = L + 1 → (∀ i ∈ st, i ≤ L) →
      st.length + todo nx 0 vis ≤ n →
      (∀ i, vis[i]? = some true → R i) → (∀ i ∈ st, R i) →
      (∀ i, vis[i]? = some true → ∀ j ∈ nx i, vis[j]? = some true ∨ j ∈ st) →
      (∀ i ∈ seeds, vis[i]? = some true ∨ i ∈ st) →
      ∃ vis', g.dfs n vis st = some (some vis') ∧ vis'.length = L + 1 ∧
        (∀ i, vis'[i]? = some true → R i) ∧
        (∀ i, vis'[i]? = some true → ∀ j ∈ nx i, vis'[j]? = some true) ∧
        (∀ i ∈ seeds, vis'[i]? = some true) := by
  intro n
  induction n with
  | zero =>
    intro vis st hl hst hm h1 h2 h3 h4
    cases st with
    | nil => exact ⟨vis, rfl, hl, h1, fun i hi j hj => by simpa using h3 i hi j hj, fun i hi => by simpa using h4 i hi⟩
    | cons a st => simp at hm
  | succ n ih =>
    intro vis st hl hst hm h1 h2 h3 h4
    cases st with
    | nil => exact ⟨vis, rfl, hl, h1, fun i hi j hj => by simpa using h3 i hi j hj, fun i hi => by simpa using h4 i hi⟩
    | cons a st =>
      have ha : a ≤ L := hst a (List.mem_cons_self ..)
      have hav : a < vis.length := by omega
      simp only [Graph.dfs]
      cases hva : vis[a]? with
      | none => rw [List.getElem?_eq_none_iff] at hva; omega
      | some b =>
        cases b with
        | true =>
          simp only
          refine ih vis st hl (fun i hi => hst i (List.mem_cons_of_mem _ hi)) (by simp at hm; omega) h1
            (fun i hi => h2 i (List.mem_cons_of_mem _ hi)) ?_ ?_
          · intro i hi j hj
            rcases h3 i hi j hj with h | h
            · exact .inl h
            · rcases List.mem_cons.1 h with rfl | h
              · exact .inl hva
              · exact .inr h
          · intro i hi
            rcases h4 i hi with h | h
            · exact .inl h
            · rcases List.mem_cons.1 h with rfl | h
              · exact .inl hva
              · exact .inr h
        | false =>
          simp only
          have hall : ((g.next a).all Option.isSome) = true := by
            rw [hnx a ha, List.all_eq_true]; intro o ho
            obtain ⟨j, _, rfl⟩ := List.mem_map.1 ho; rfl
          have hfm : (g.next a).filterMap id = nx a := by
            rw [hnx a ha, List.filterMap_map]; simp
          rw [if_pos hall, hfm]
          have hget : ∀ i, (vis.set a true)[i]? = some true ↔ (i = a ∨ vis[i]? = some true) := by
            intro i
            rw [List.getElem?_set]
            by_cases hi : a = i
            · subst hi; simp [hav]
            · simp [hi]; exact fun h => absurd h.symm hi
          refine ih (vis.set a true) ((nx a).reverse ++ st) (by simpa using hl) ?_ ?_ ?_ ?_ ?_ ?_
          · intro i hi
            rcases List.mem_append.1 hi with hi | hi
            · exact hb a ha i (by simpa using hi)
            · exact hst i (List.mem_cons_of_mem _ hi)
          · have := todo_set nx vis 0 a hva
            simp only [Nat.zero_add] at this
            simp only [List.length_cons] at hm
            simp only [List.length_append, List.length_reverse]
            omega
          · intro i hi
            rcases (hget i).1 hi with rfl | hi
            · exact h2 _ (List.mem_cons_self ..)
            · exact h1 i hi
          · intro i hi
            rcases List.mem_append.1 hi with hi | hi
            · exact hR a (h2 a (List.mem_cons_self ..)) i (by simpa using hi)
            · exact h2 i (List.mem_cons_of_mem _ hi)
          · intro i hi j hj
            rw [hget]
            rcases (hget i).1 hi with rfl | hi
            · exact .inr (List.mem_append_left _ (by simpa using hj))
            · rcases h3 i hi j hj with h | h
              · exact .inl (.inr h)
              · rcases List.mem_cons.1 h with rfl | h
                · exact .inl (.inl rfl)
                · exact .inr (List.mem_append_right _ h)
          · intro i hi
            rw [hget]
            rcases h4 i hi with h | h
            · exact .inl (.inr h)
            · rcases List.mem_cons.1 h with rfl | h
              · exact .inl (.inl rfl)
              · exact .inr (List.mem_append_right _ h)

theorem replicate_false (n i : Nat) : (List.replicate n false)[i]? ≠ some true := by
  intro h
  obtain ⟨hi, e⟩ := List.getElem?_eq_some_iff.1 h
  simp at e

/-- The search visits exactly the nodes that can be reached from the seeds. -/
theorem dfs_reach (g : Graph F) (L : Nat) (nx : Nat → List Nat)
    (hnx : ∀ i, i ≤ L → g.next i = (nx i).map some) (hb : ∀ i, i ≤ L → ∀ j ∈ nx i, j ≤ L)
    (seeds : List Nat) (hs : ∀ i ∈ seeds, i ≤ L) :
    ∃ N vis, (∀ n, N ≤ n → g.dfs n (List.replicate (L + 1) false) seeds.reverse = some (some vis)) ∧ vis.length = L + 1 ∧
      ∀ i, vis[i]? = some true ↔ ∃ s ∈ seeds, Relation.ReflTransGen (fun a b => b ∈ nx a) s i := by
  have key : ∀ n, seeds.reverse.length + todo nx 0 (List.replicate (L + 1) false) ≤ n → ∃ vis,
      g.dfs n (List.replicate (L + 1) false) seeds.reverse = some (some vis) ∧ vis.length = L + 1 ∧
      ∀ i, vis[i]? = some true ↔ ∃ s ∈ seeds, Relation.ReflTransGen (fun a b => b ∈ nx a) s i := by
    intro n hn
    obtain ⟨vis, h1, h2, h3, h4, h5⟩ := dfs_spec g L nx hnx hb seeds
      (fun i => ∃ s ∈ seeds, Relation.ReflTransGen (fun a b => b ∈ nx a) s i)
      (by rintro i ⟨s, hs, h⟩ j hj; exact ⟨s, hs, h.tail hj⟩) n (List.replicate (L + 1) false) seeds.reverse
      (by simp) (by simpa using hs) hn (fun i hi => absurd hi (replicate_false _ _))
      (fun i hi => ⟨i, by simpa using hi, .refl⟩) (fun i hi => absurd hi (replicate_false _ _))
      (fun i hi => .inr (by simpa using hi))
    refine ⟨vis, h1, h2, fun i => ⟨h3 i, ?_⟩⟩
    rintro ⟨s, hs', h⟩
    induction h with
    | refl => exact h5 s hs'
    | tail _ hj ih => exact h4 _ ih _ hj
  obtain ⟨vis, h1, h2, h3⟩ := key _ (Nat.le_refl _)
  refine ⟨seeds.reverse.length + todo nx 0 (List.replicate (L + 1) false), vis, ?_, h2, h3⟩
  intro n hn
  obtain ⟨vis', h1', h2', h3'⟩ := key n hn
  rw [h1']
  congr 2
  apply List.ext_getElem? 
  intro i
  by_cases hi : i < L + 1
  · rw [List.getElem?_eq_getElem (by omega), List.getElem?_eq_getElem (by omega)]
    have := (h3' i).trans (h3 i).symm
    rw [List.getElem?_eq_getElem (by omega), List.getElem?_eq_getElem (by omega)] at this
    congr 1
    simp only [Option.some.injEq] at this
    cases h : vis'[i] <;> cases h' : vis[i] <;> simp [h, h'] at this ⊢
  · rw [List.getElem?_eq_none (by omega), List.getElem?_eq_none (by omega)]

end dfs

/-! ### The graph -/

section graph
variable {kind : F → Kind F} {cells : List (GCell F)}

/-- The successors of a node. -/
def succs (L : Nat) (found : List Edge) (i : Nat) : List Nat :=
  if i < L then ((found.filter (fun e => e.dst ≠ .input)).filter (fun e => e.src = .cell i)).map (fun e => e.dst.idx L)
  else (found.filter (fun e => e.dst = .input)).map (fun e => e.dst.idx L)

theorem zipIdx_filter_map {α β : Type} (l : List α) (P : α → Bool) (h : α → β) (k : Nat) :
    ((l.zipIdx k).filter (fun q => P q.1)).map (fun q => h q.1) = (l.filter P).map h := by
  induction l generalizing k with
  | nil => rfl
  | cons a l ih =>
    simp only [List.zipIdx_cons, List.filter_cons]
    cases P a <;> simp [ih]

theorem ofEdges_length (cells : List (GCell F)) (found : List Edge) :
    (Graph.ofEdges cells found).cells.length = cells.length := by simp [Graph.ofEdges]

theorem next_ofEdges (cells : List (GCell F)) (found : List Edge) (i : Nat) (hi : i ≤ cells.length) :
    (Graph.ofEdges cells found).next i = (succs cells.length found i).map some := by
  unfold Graph.next succs
  by_cases h : i < cells.length
  · have hc : (Graph.ofEdges cells found).cells[i]? = some (cells[i],
        (((found.filter (fun e => e.dst ≠ .input)).zipIdx.filter (fun q => q.1.src = .cell i)).map Prod.snd)) := by
      simp [Graph.ofEdges, h]
    rw [hc, if_pos h]
    simp only [List.map_map]
    refine Eq.trans ?_ (zipIdx_filter_map (found.filter (fun e => e.dst ≠ .input)) (fun e => e.src = .cell i)
      (some ∘ fun e => e.dst.idx cells.length) 0)
    apply List.map_congr_left
    intro q hq
    have hq' := (List.mem_filter.1 hq).1
    rw [List.mem_zipIdx_iff_getElem?] at hq'
    have : (Graph.ofEdges cells found).edges[q.2]? = some q.1 := by
      simp only [Graph.ofEdges]
      rw [List.getElem?_append_left]
      · exact hq'
      · exact (List.getElem?_eq_some_iff.1 hq').1
    simp only [Function.comp, this, Option.map_some, ofEdges_length]
  · have hc : (Graph.ofEdges cells found).cells[i]? = none := by
      rw [List.getElem?_eq_none_iff]; simp [Graph.ofEdges]; omega
    rw [hc, if_neg h]
    simp only [List.map_map]
    apply List.ext_getElem?
    intro j
    simp only [List.getElem?_map]
    have hlen : (Graph.ofEdges cells found).edges.length - (Graph.ofEdges cells found).inputStart =
        (found.filter (fun e => e.dst = .input)).length := by simp [Graph.ofEdges]
    rw [hlen]
    by_cases hj : j < (found.filter (fun e => e.dst = .input)).length
    · rw [List.getElem?_range hj, List.getElem?_eq_getElem hj]
      have : (Graph.ofEdges cells found).edges[j + (Graph.ofEdges cells found).inputStart]? =
          some (found.filter (fun e => e.dst = .input))[j] := by
        simp only [Graph.ofEdges]
        rw [List.getElem?_append_right (by omega)]
        simp
      simp only [Option.map_some, Function.comp, this, ofEdges_length]
    · rw [List.getElem?_eq_none (by simpa using hj), List.getElem?_eq_none (by omega)]
      rfl

theorem ofEdges_cells (cells : List (GCell F)) (found : List Edge) :
    (Graph.ofEdges cells found).cells.map Prod.fst = cells := by
  simp [Graph.ofEdges, Function.comp_def]

theorem succs_bound (found : List Edge) (hf : ∀ e ∈ found, ∀ j, e.dst = .cell j → j < cells.length) (i : Nat) :
    ∀ j ∈ succs cells.length found i, j ≤ cells.length := by
  intro j hj
  unfold succs at hj
  split at hj
  · obtain ⟨e, he, rfl⟩ := List.mem_map.1 hj
    have he' := (List.mem_filter.1 (List.mem_filter.1 he).1).1
    cases hd : e.dst with
    | input => simp [ToNode.idx]
    | cell k => have := hf e he' k hd; simp [ToNode.idx]; omega
  · obtain ⟨e, he, rfl⟩ := List.mem_map.1 hj
    have : e.dst = .input := by simpa using (List.mem_filter.1 he).2
    simp [this, ToNode.idx]

theorem succs_cell (found : List Edge) (i : Nat) (hi : i < cells.length) (j : Nat) :
    j ∈ succs cells.length found i ↔ (⟨.cell i, .cell j⟩ : Edge) ∈ found := by
  unfold succs
  rw [if_pos hi]
  constructor
  · intro hj
    obtain ⟨e, he, rfl⟩ := List.mem_map.1 hj
    obtain ⟨he1, he2⟩ := List.mem_filter.1 he
    obtain ⟨he3, he4⟩ := List.mem_filter.1 he1
    obtain ⟨src, dst⟩ := e
    simp only [decide_eq_true_eq] at he2 he4
    subst he2
    cases dst with
    | input => exact absurd rfl he4
    | cell k => exact he3
  · intro h
    refine List.mem_map.2 ⟨_, List.mem_filter.2 ⟨List.mem_filter.2 ⟨h, by simp⟩, by simp⟩, rfl⟩

theorem filterMap_congr' {α β : Type} {f g : α → Option β} {l : List α} (h : ∀ a ∈ l, f a = g a) :
    l.filterMap f = l.filterMap g := by
  induction l with
  | nil => rfl
  | cons a l ih =>
    simp only [List.filterMap_cons, h a (List.mem_cons_self ..), ih (fun b hb => h b (List.mem_cons_of_mem _ hb))]

/-- The visited cells are reported in order. -/
theorem collect_cells (cells : List (GCell F)) (found : List Edge) (vis : List Bool) (hl : vis.length = cells.length + 1) :
    ((Graph.ofEdges cells found).collect vis).cells =
      (cells.zipIdx.filter (fun p => vis[p.2]? = some true)).map Prod.fst := by
  unfold Graph.collect
  simp only
  have hz : ∀ p ∈ vis.dropLast.zipIdx, ((Graph.ofEdges cells found).cells[p.2]?).map Prod.fst = cells[p.2]? := by
    intro p _
    rw [← List.getElem?_map, ofEdges_cells]
  have : vis.dropLast.length = cells.length := by simp [hl]
  have e : (vis.dropLast.zipIdx.filter Prod.fst).filterMap (fun p => ((Graph.ofEdges cells found).cells[p.2]?).map Prod.fst) =
      (vis.dropLast.zipIdx.filter Prod.fst).filterMap (fun p => cells[p.2]?) := by
    apply filterMap_congr'
    intro p hp
    exact hz p (List.mem_filter.1 hp).1
  rw [e]
  have e2 : cells.zipIdx.filter (fun p => vis[p.2]? = some true) =
      cells.zipIdx.filter (fun p => vis.dropLast[p.2]? = some true) := by
    apply List.filter_congr
    intro p hp
    have hp' := List.snd_lt_of_mem_zipIdx hp
    rw [List.dropLast_eq_take, List.getElem?_take, if_pos (by omega)]
  rw [e2]
  generalize hv : vis.dropLast = w at this
  clear hz e e2 hl hv
  -- both sides walk along the same indices
  have gen : ∀ (w : List Bool) (cs : List (GCell F)) (k : Nat) (C : List (GCell F)) (W : List Bool), w.length = cs.length →
      (∀ i, i < cs.length → C[k + i]? = cs[i]?) → (∀ i, i < w.length → W[k + i]? = w[i]?) →
      ((w.zipIdx k).filter Prod.fst).filterMap (fun p => C[p.2]?) =
        ((cs.zipIdx k).filter (fun p => W[p.2]? = some true)).map Prod.fst := by
    intro w
    induction w with
    | nil => intro cs k C W h _ _; cases cs with
      | nil => rfl
      | cons c cs => simp at h
    | cons b w ih =>
      intro cs k C W h hC hW
      cases cs with
      | nil => simp at h
      | cons c cs =>
        have h0 := hC 0 (by simp)
        have hw0 := hW 0 (by simp)
        simp only [Nat.add_zero, List.getElem?_cons_zero] at h0 hw0
        have := ih cs (k + 1) C W (by simpa using h)
          (fun i hi => by
            have := hC (i + 1) (by simpa using hi)
            rw [show k + 1 + i = k + (i + 1) by omega, this]; simp)
          (fun i hi => by
            have := hW (i + 1) (by simpa using hi)
            rw [show k + 1 + i = k + (i + 1) by omega, this]; simp)
        simp only [List.zipIdx_cons, List.filter_cons, hw0]
        cases b
        · simpa using this
        · simp [h0, this]
  exact gen w cells 0 cells w this (by simp) (by simp)

theorem Clean.seen_cell {t : Fm F} (h : Clean kind cells t) (y : Nat) (hs : Seen kind t (.cell y)) :
    ∃ c ∈ cells, c.fid = y := by
  generalize hn : Node.cell y = n at hs
  induction hs with
  | cell hk =>
    cases hn
    cases h with
    | cell h' _ hc => rw [hk] at h'; cases h'; exact hc
    | input h' => rw [hk] at h'; cases h'
    | msg h' => rw [hk] at h'; cases h'
    | cond h' => rw [hk] at h'; cases h'
    | other h' => rcases h' with h' | ⟨_, _, _, h'⟩ <;> rw [hk] at h' <;> cases h'
  | input _ => cases hn
  | msg hk hg _ ih =>
    cases h with
    | cell h' _ hc => rw [hk] at h'; cases h'
    | input h' => rw [hk] at h'; cases h'
    | msg h' hg' _ _ hm => rw [hg] at hg'; cases hg'; exact ih hm hn
    | cond h' => rw [hk] at h'; cases h'
    | other h' => rcases h' with h' | ⟨_, _, _, h'⟩ <;> rw [hk] at h' <;> cases h'
  | cond hk hg _ ih =>
    cases h with
    | cell h' _ hc => rw [hk] at h'; cases h'
    | input h' => rw [hk] at h'; cases h'
    | msg h' => rw [hk] at h'; cases h'
    | cond h' hg' _ _ hm => rw [hg] at hg'; cases hg'; exact ih hm hn
    | other h' => rcases h' with h' | ⟨_, _, _, h'⟩ <;> rw [hk] at h' <;> cases h'
  | arg hf ha _ ih =>
    cases h with
    | cell h' => rcases hf with hf | ⟨_, _, _, hf⟩ <;> rw [hf] at h' <;> cases h'
    | input h' => rcases hf with hf | ⟨_, _, _, hf⟩ <;> rw [hf] at h' <;> cases h'
    | msg h' => rcases hf with hf | ⟨_, _, _, hf⟩ <;> rw [hf] at h' <;> cases h'
    | cond h' => rcases hf with hf | ⟨_, _, _, hf⟩ <;> rw [hf] at h' <;> cases h'
    | other _ ha' => exact ih (ha' _ ha) hn
  | body _ ih => cases h with | quant hb => exact ih hb hn

/-- Cell `x` reads cell `y` in one of its assignments. -/
def Reads (kind : F → Kind F) (cells : List (GCell F)) (x y : Nat) : Prop :=
  ∃ c ∈ cells, c.fid = x ∧ ∃ a ∈ c.assigns, Seen kind a.content (.cell y)

theorem denotes_cell (hd : (cells.map GCell.fid).Nodup) (j : Nat) (n : Node) :
    Denotes cells (.cell j) n ↔ ∃ c, cells[j]? = some c ∧ n = .cell c.fid := by
  constructor
  · rintro ⟨c, h1, h2, _⟩; exact ⟨c, h1, h2⟩
  · rintro ⟨c, h1, h2⟩
    refine ⟨c, h1, h2, ?_⟩
    intro i c' hi hc' e
    have h1' : (cells.map GCell.fid)[j]? = some c.fid := by simp [h1]
    have h2' : (cells.map GCell.fid)[i]? = some c.fid := by simp [hc', e]
    have hj : j < (cells.map GCell.fid).length := (List.getElem?_eq_some_iff.1 h1').1
    have := (List.getElem?_inj hj hd).1 (h1'.trans h2'.symm)
    omega

theorem idx_unique (hd : (cells.map GCell.fid).Nodup) {i j : Nat} {c c' : GCell F} (h : cells[i]? = some c)
    (h' : cells[j]? = some c') (e : c.fid = c'.fid) : i = j := by
  have h1 : (cells.map GCell.fid)[i]? = some c.fid := by simp [h]
  have h2 : (cells.map GCell.fid)[j]? = some c.fid := by simp [h', e]
  have hi : i < (cells.map GCell.fid).length := (List.getElem?_eq_some_iff.1 h1).1
  exact (List.getElem?_inj hi hd).1 (h1.trans h2.symm)

/-- The ancestors computed from a list of starting nodes. -/
theorem ancestors_seeds (found : List Edge) (hf : ∀ e ∈ found, ∀ j, e.dst = .cell j → j < cells.length) (r : MacroRef F)
    (l : List Nat) (hr : (Graph.ofEdges cells found).seeds r = some l) (hl : ∀ i ∈ l, i ≤ cells.length) :
    ∃ N a, (∀ fuel, N ≤ fuel → (Graph.ofEdges cells found).ancestors fuel r = .ok a) ∧ a.cells.Sublist cells ∧
      (a.input = true ↔ ∃ s ∈ l, Relation.ReflTransGen (fun i j => j ∈ succs cells.length found i) s cells.length) ∧
      ∀ c, c ∈ a.cells ↔ ∃ i, cells[i]? = some c ∧
        ∃ s ∈ l, Relation.ReflTransGen (fun i j => j ∈ succs cells.length found i) s i := by
  obtain ⟨N, vis, h1, h2, h3⟩ := dfs_reach (Graph.ofEdges cells found) cells.length (succs cells.length found)
    (next_ofEdges cells found) (fun i _ => succs_bound found hf i) l hl
  refine ⟨N, (Graph.ofEdges cells found).collect vis, ?_, ?_, ?_, ?_⟩
  · intro fuel hfu
    simp only [Graph.ancestors, hr, ofEdges_length, h1 fuel hfu]
  · rw [collect_cells cells found vis h2]
    have := (List.filter_sublist (l := cells.zipIdx) (p := fun p => vis[p.2]? = some true)).map Prod.fst
    simpa using this
  · rw [← h3]
    have : ((Graph.ofEdges cells found).collect vis).input = vis.getLast?.getD false := rfl
    rw [this, List.getLast?_eq_getElem?, h2]
    simp only [Nat.add_sub_cancel]
    cases vis[cells.length]? with
    | none => simp
    | some b => simp
  · intro c
    rw [collect_cells cells found vis h2]
    simp only [List.mem_map, List.mem_filter, decide_eq_true_eq]
    constructor
    · rintro ⟨⟨c', i⟩, ⟨hi, hv⟩, rfl⟩
      rw [List.mem_zipIdx_iff_getElem?] at hi
      exact ⟨i, hi, (h3 i).1 hv⟩
    · rintro ⟨i, hi, hv⟩
      exact ⟨(c, i), ⟨by rw [List.mem_zipIdx_iff_getElem?]; exact hi, (h3 i).2 hv⟩, rfl⟩

theorem mem_scanned (steps : List (GStep F)) (fr : FromNode) (t : Fm F) :
    (fr, t) ∈ scanned steps cells ↔ (∃ s ∈ steps, (fr = .condition ∧ t = s.condition) ∨ (fr = .message ∧ t = s.message)) ∨
      ∃ i c, cells[i]? = some c ∧ fr = .cell i ∧ ∃ a ∈ c.assigns, t = a.content := by
  unfold scanned
  rw [List.mem_append, List.mem_flatMap, List.mem_flatMap]
  refine or_congr ?_ ?_
  · simp
  · constructor
    · rintro ⟨⟨c, i⟩, hp, hm⟩
      rw [List.mem_zipIdx_iff_getElem?] at hp
      obtain ⟨a, ha, e⟩ := List.mem_map.1 hm
      simp only [Prod.mk.injEq] at e
      exact ⟨i, c, hp, e.1.symm, a, ha, e.2.symm⟩
    · rintro ⟨i, c, hc, rfl, a, ha, rfl⟩
      exact ⟨(c, i), by rw [List.mem_zipIdx_iff_getElem?]; exact hc, List.mem_map.2 ⟨a, ha, rfl⟩⟩

/-- A protocol the graph construction accepts: cells are distinct and everything scanned is clean. -/
structure GoodProt (kind : F → Kind F) (steps : List (GStep F)) (cells : List (GCell F)) : Prop where
  nodup : (cells.map GCell.fid).Nodup
  steps : ∀ s ∈ steps, Clean kind cells s.condition ∧ Clean kind cells s.message
  assigns : ∀ c ∈ cells, ∀ a ∈ c.assigns, Clean kind cells a.content

/-- What `ancestors` answers, for every request. -/
structure AncSpec (kind : F → Kind F) (steps : List (GStep F)) (cells : List (GCell F)) (anc : MacroRef F → AncRes F) : Prop where
  input : ∃ a, anc .input = .ok a ∧ a.input = true ∧ a.cells = []
  cell : ∀ c ∈ cells, ∃ a, anc (.cell c) = .ok a ∧ a.input = false ∧ a.cells.Sublist cells ∧
    ∀ c' ∈ cells, c' ∈ a.cells ↔ Relation.ReflTransGen (Reads kind cells) c.fid c'.fid
  absent : ∀ c, c.fid ∉ cells.map GCell.fid → anc (.cell c) = .notFound
  exec : ∃ a, anc .exec = .ok a ∧ (a.input = true ↔ ∃ s ∈ steps, Seen kind s.condition .input) ∧ a.cells.Sublist cells ∧
    ∀ c' ∈ cells, c' ∈ a.cells ↔
      ∃ s ∈ steps, ∃ x, Seen kind s.condition (.cell x) ∧ Relation.ReflTransGen (Reads kind cells) x c'.fid

/-- **C28, what holds.** On an acceptable protocol the graph is built without panic and every question to it
is answered: the ancestors of a cell are exactly the cells reached by following what assignments read
directly, those of `exec` the cells so reached from the conditions. The input is never an ancestor of a
cell and no cell is an ancestor of the input. -/
theorem C28_ancestors_partial (steps : List (GStep F)) (cells : List (GCell F)) (hp : GoodProt kind steps cells) :
    ∃ N g, (∀ fuel, N ≤ fuel → Graph.new kind fuel steps cells = some (some g)) ∧
      ∃ M, ∀ fuel, M ≤ fuel → AncSpec kind steps cells (g.ancestors fuel) := by
  have hclean : ∀ p ∈ scanned steps cells, Clean kind cells p.2 := by
    rintro ⟨fr, t⟩ hpt
    rcases (mem_scanned steps fr t).1 hpt with ⟨s, hs, ⟨_, rfl⟩ | ⟨_, rfl⟩⟩ | ⟨i, c, hc, _, a, ha, rfl⟩
    · exact (hp.steps s hs).1
    · exact (hp.steps s hs).2
    · exact hp.assigns c (List.mem_of_getElem? hc) a ha
  obtain ⟨N, found, hN, hfound⟩ := scanAll_ok (kind := kind) (cells := cells) (scanned steps cells) hclean
  have hf : ∀ e ∈ found, ∀ j, e.dst = .cell j → j < cells.length := by
    intro e he j hj
    obtain ⟨p, _, _, n, hn, _⟩ := (hfound e).1 he
    rw [hj, denotes_cell hp.nodup] at hn
    obtain ⟨c, hc, _⟩ := hn
    exact (List.getElem?_eq_some_iff.1 hc).1
  -- edges between cells
  have hedge : ∀ i j c c', cells[i]? = some c → cells[j]? = some c' →
      (j ∈ succs cells.length found i ↔ Reads kind cells c.fid c'.fid) := by
    intro i j c c' hi hj
    rw [succs_cell found i (List.getElem?_eq_some_iff.1 hi).1, hfound]
    constructor
    · rintro ⟨⟨fr, t⟩, hpt, e, n, hn, hsn⟩
      rw [denotes_cell hp.nodup] at hn
      obtain ⟨c'', h1, rfl⟩ := hn
      rw [hj] at h1; cases h1
      rcases (mem_scanned steps fr t).1 hpt with ⟨s, hs, ⟨h', _⟩ | ⟨h', _⟩⟩ | ⟨i', c₀, hc₀, h', a, ha, rfl⟩
      · simp only at e; rw [h'] at e; cases e
      · simp only at e; rw [h'] at e; cases e
      · simp only at e; rw [h'] at e; cases e
        rw [hi] at hc₀; cases hc₀
        exact ⟨c, List.mem_of_getElem? hi, rfl, a, ha, hsn⟩
    · rintro ⟨c₀, hc₀, e, a, ha, hs⟩
      obtain ⟨k, hk⟩ := List.getElem?_of_mem hc₀
      obtain rfl := idx_unique hp.nodup hk hi e
      rw [hi] at hk; cases hk
      refine ⟨(.cell k, a.content), (mem_scanned steps _ _).2 (.inr ⟨k, c, hi, rfl, a, ha, rfl⟩), rfl, _, ?_, hs⟩
      rw [denotes_cell hp.nodup]; exact ⟨c', hj, rfl⟩
  have hsucc_lt : ∀ i, i < cells.length → ∀ j ∈ succs cells.length found i, j < cells.length := by
    intro i hi j hj
    exact hf _ ((succs_cell found i hi j).1 hj) j rfl
  have hsucc_L : ∀ j ∈ succs cells.length found cells.length, j = cells.length := by
    intro j hj
    unfold succs at hj
    rw [if_neg (Nat.lt_irrefl _)] at hj
    obtain ⟨e, he, rfl⟩ := List.mem_map.1 hj
    have : e.dst = .input := by simpa using (List.mem_filter.1 he).2
    simp [this, ToNode.idx]
  have hlt : ∀ i j, Relation.ReflTransGen (fun i j => j ∈ succs cells.length found i) i j → i < cells.length →
      j < cells.length := by
    intro i j h hi
    induction h with
    | refl => exact hi
    | tail _ h ih => exact hsucc_lt _ ih _ h
  have hL : ∀ j, Relation.ReflTransGen (fun i j => j ∈ succs cells.length found i) cells.length j → j = cells.length := by
    intro j h
    induction h with
    | refl => rfl
    | tail _ h ih => rw [ih] at h; exact hsucc_L _ h
  have hreach : ∀ i j c c', cells[i]? = some c → cells[j]? = some c' →
      (Relation.ReflTransGen (fun i j => j ∈ succs cells.length found i) i j ↔
        Relation.ReflTransGen (Reads kind cells) c.fid c'.fid) := by
    intro i j c c' hi hj
    constructor
    · intro h
      induction h generalizing c' with
      | refl => rw [hi] at hj; cases hj; exact .refl
      | @tail k j h1 h2 ih =>
        have hk := hlt _ _ h1 (List.getElem?_eq_some_iff.1 hi).1
        have := ih cells[k] (List.getElem?_eq_getElem hk)
        exact this.tail ((hedge k j _ c' (List.getElem?_eq_getElem hk) hj).1 h2)
    · intro h
      have gen : ∀ y, Relation.ReflTransGen (Reads kind cells) c.fid y → ∀ j c', cells[j]? = some c' → c'.fid = y →
          Relation.ReflTransGen (fun i j => j ∈ succs cells.length found i) i j := by
        intro y h
        induction h with
        | refl =>
          intro j c' hj e
          obtain rfl := idx_unique hp.nodup hj hi e
          exact .refl
        | @tail y z h1 h2 ih =>
          intro j c' hj e
          obtain ⟨c₀, hc₀, e₀, a, ha, hs⟩ := h2
          obtain ⟨k, hk⟩ := List.getElem?_of_mem hc₀
          refine (ih k c₀ hk e₀).tail ((hedge k j c₀ c' hk hj).2 ⟨c₀, hc₀, rfl, a, ha, by rw [e]; exact hs⟩)
      exact gen _ h j c' hj rfl
  refine ⟨N, Graph.ofEdges cells found, ?_, ?_⟩
  · intro fuel hfu
    simp [Graph.new, hN fuel hfu]
  -- the input
  obtain ⟨N1, a1, hA1, hS1, hI1, hC1⟩ := ancestors_seeds found hf .input [cells.length]
    (by simp [Graph.seeds, ofEdges_length]) (by simp)
  -- exec
  have hsx : (Graph.ofEdges cells found).seeds .exec = some
      (((Graph.ofEdges cells found).edges.filter (fun e => e.src = .condition)).map (fun e => e.dst.idx cells.length)) := by
    simp [Graph.seeds, ofEdges_length]
  have hmemE : ∀ e, e ∈ (Graph.ofEdges cells found).edges ↔ e ∈ found := by
    intro e
    simp only [Graph.ofEdges, List.mem_append, List.mem_filter]
    by_cases h : e.dst = .input <;> simp [h]
  have hcond : ∀ d, (⟨.condition, d⟩ : Edge) ∈ found ↔ ∃ s ∈ steps, ∃ n, Denotes cells d n ∧ Seen kind s.condition n := by
    intro d
    rw [hfound]
    constructor
    · rintro ⟨⟨fr, t⟩, hpt, e, n, hn, hsn⟩
      rcases (mem_scanned steps fr t).1 hpt with ⟨s, hs, ⟨_, rfl⟩ | ⟨h', _⟩⟩ | ⟨i', c₀, hc₀, h', a, ha, rfl⟩
      · exact ⟨s, hs, n, hn, hsn⟩
      · simp only at e; rw [h'] at e; cases e
      · simp only at e; rw [h'] at e; cases e
    · rintro ⟨s, hs, n, hn, hsn⟩
      exact ⟨(.condition, s.condition), (mem_scanned steps _ _).2 (.inl ⟨s, hs, .inl ⟨rfl, rfl⟩⟩), rfl, n, hn, hsn⟩
  obtain ⟨N2, a2, hA2, hS2, hI2, hC2⟩ := ancestors_seeds found hf .exec _ hsx (by
    intro i hi
    obtain ⟨e, he, rfl⟩ := List.mem_map.1 hi
    have he' := (hmemE e).1 (List.mem_filter.1 he).1
    cases hd : e.dst with
    | input => simp [ToNode.idx]
    | cell k => have := hf e he' k hd; simp [ToNode.idx]; omega)
  have hseed : ∀ i, i ∈ (((Graph.ofEdges cells found).edges.filter (fun e => e.src = .condition)).map
      (fun e => e.dst.idx cells.length)) ↔ ∃ d : ToNode, (⟨.condition, d⟩ : Edge) ∈ found ∧ i = d.idx cells.length := by
    intro i
    rw [List.mem_map]
    constructor
    · rintro ⟨⟨src, d⟩, he, rfl⟩
      obtain ⟨h1, h2⟩ := List.mem_filter.1 he
      simp only [decide_eq_true_eq] at h2
      subst h2
      exact ⟨d, (hmemE _).1 h1, rfl⟩
    · rintro ⟨d, hd, rfl⟩
      exact ⟨_, List.mem_filter.2 ⟨(hmemE _).2 hd, by simp⟩, rfl⟩
  -- every cell
  have hcells : ∃ N3, ∀ fuel, N3 ≤ fuel → ∀ c ∈ cells, ∃ a, (Graph.ofEdges cells found).ancestors fuel (.cell c) = .ok a ∧
      a.input = false ∧ a.cells.Sublist cells ∧
      ∀ c' ∈ cells, c' ∈ a.cells ↔ Relation.ReflTransGen (Reads kind cells) c.fid c'.fid := by
    have one : ∀ c ∈ cells, ∃ N3, ∀ fuel, N3 ≤ fuel → ∃ a, (Graph.ofEdges cells found).ancestors fuel (.cell c) = .ok a ∧
        a.input = false ∧ a.cells.Sublist cells ∧
        ∀ c' ∈ cells, c' ∈ a.cells ↔ Relation.ReflTransGen (Reads kind cells) c.fid c'.fid := by
      intro c hc
      obtain ⟨i, hi, hdi⟩ := position_spec (cells := cells) (c := c) ⟨c, hc, rfl⟩
      obtain ⟨k, hk⟩ := List.getElem?_of_mem hc
      have hik : cells[i]? = some c := by
        have := (hdi (.cell c.fid)).2 rfl
        rw [denotes_cell hp.nodup] at this
        obtain ⟨c', h1, h2⟩ := this
        simp only [Node.cell.injEq] at h2
        obtain rfl := idx_unique hp.nodup hk h1 h2
        exact hk
      have hilt := (List.getElem?_eq_some_iff.1 hik).1
      obtain ⟨N3, a, h1, h2, h3, h4⟩ := ancestors_seeds found hf (.cell c) [i]
        (by simp [Graph.seeds, ofEdges_cells, hi]) (by simp; omega)
      refine ⟨N3, fun fuel hfu => ⟨a, h1 fuel hfu, ?_, h2, ?_⟩⟩
      · cases hin : a.input with
        | false => rfl
        | true =>
          obtain ⟨s, hs, hr⟩ := h3.1 hin
          rw [List.mem_singleton.1 hs] at hr
          exact absurd (hlt _ _ hr hilt) (Nat.lt_irrefl _)
      · intro c' hc'
        rw [h4]
        obtain ⟨j, hj⟩ := List.getElem?_of_mem hc'
        constructor
        · rintro ⟨j', hj', s, hs, hr⟩
          rw [List.mem_singleton.1 hs] at hr
          exact (hreach i j' c c' hik hj').1 hr
        · intro hr
          exact ⟨j, hj, i, by simp, (hreach i j c c' hik hj).2 hr⟩
    have gen : ∀ l : List (GCell F), (∀ c ∈ l, c ∈ cells) → ∃ N3, ∀ fuel, N3 ≤ fuel → ∀ c ∈ l, ∃ a,
        (Graph.ofEdges cells found).ancestors fuel (.cell c) = .ok a ∧
        a.input = false ∧ a.cells.Sublist cells ∧
        ∀ c' ∈ cells, c' ∈ a.cells ↔ Relation.ReflTransGen (Reads kind cells) c.fid c'.fid := by
      intro l
      induction l with
      | nil => intro _; exact ⟨0, by simp⟩
      | cons c l ih =>
        intro hl
        obtain ⟨A, hA⟩ := one c (hl c (List.mem_cons_self ..))
        obtain ⟨B, hB⟩ := ih (fun c' h => hl c' (List.mem_cons_of_mem _ h))
        refine ⟨max A B, fun fuel hfu c' hc' => ?_⟩
        rcases List.mem_cons.1 hc' with rfl | hc'
        · exact hA fuel (by omega)
        · exact hB fuel (by omega) c' hc'
    exact gen cells (fun _ h => h)
  obtain ⟨N3, hN3⟩ := hcells
  refine ⟨max N1 (max N2 N3), fun fuel hfu => ⟨⟨a1, hA1 fuel (by omega), ?_, ?_⟩, hN3 fuel (by omega), ?_,
    ⟨a2, hA2 fuel (by omega), ?_, hS2, ?_⟩⟩⟩
  · exact hI1.2 ⟨_, by simp, .refl⟩
  · rw [List.eq_nil_iff_forall_not_mem]
    intro c hc
    obtain ⟨i, hi, s, hs, hr⟩ := (hC1 c).1 hc
    rw [List.mem_singleton.1 hs] at hr
    have := hL i hr
    have := (List.getElem?_eq_some_iff.1 hi).1
    omega
  · intro c hc
    have : position cells c = none := by
      unfold position
      rw [List.findIdx?_eq_none_iff]
      intro g hg
      simp only [beq_eq_false_iff_ne, ne_eq]
      intro e
      exact hc (List.mem_map.2 ⟨g, hg, e⟩)
    simp [Graph.ancestors, Graph.seeds, ofEdges_cells, this]
  · rw [hI2]
    constructor
    · rintro ⟨i, hi, hr⟩
      obtain ⟨d, hd, rfl⟩ := (hseed i).1 hi
      obtain ⟨s, hs, n, hn, hsn⟩ := (hcond d).1 hd
      cases d with
      | input => rw [show n = .input from hn] at hsn; exact ⟨s, hs, hsn⟩
      | cell k =>
        have hk := hf _ hd k rfl
        exact absurd (hlt _ _ hr hk) (Nat.lt_irrefl _)
    · rintro ⟨s, hs, hsn⟩
      exact ⟨cells.length, (hseed _).2 ⟨.input, (hcond _).2 ⟨s, hs, .input, rfl, hsn⟩, rfl⟩, .refl⟩
  · intro c' hc'
    rw [hC2]
    obtain ⟨j, hj⟩ := List.getElem?_of_mem hc'
    constructor
    · rintro ⟨j', hj', i, hi, hr⟩
      obtain ⟨d, hd, rfl⟩ := (hseed i).1 hi
      obtain ⟨s, hs, n, hn, hsn⟩ := (hcond d).1 hd
      cases d with
      | input =>
        have := hL _ hr
        have := (List.getElem?_eq_some_iff.1 hj').1
        omega
      | cell k =>
        rw [denotes_cell hp.nodup] at hn
        obtain ⟨c, hc, rfl⟩ := hn
        exact ⟨s, hs, c.fid, hsn, (hreach k j' c c' hc hj').1 hr⟩
    · rintro ⟨s, hs, x, hx, hr⟩
      obtain ⟨c, hc, rfl⟩ := (hp.steps s hs).1.seen_cell x hx
      obtain ⟨k, hk⟩ := List.getElem?_of_mem hc
      refine ⟨j, hj, k, (hseed _).2 ⟨.cell k, (hcond _).2 ⟨s, hs, _, ?_, hx⟩, rfl⟩, (hreach k j c c' hk hj).2 hr⟩
      rw [denotes_cell hp.nodup]; exact ⟨c, hk, rfl⟩

/-! ### The full property -/

/-- What `r` depends on directly: the input on what messages and conditions call, a cell on what its
assignments call. -/
def Direct (kind : F → Kind F) (steps : List (GStep F)) (cells : List (GCell F)) : Node → Node → Prop
  | .input, n => ∃ s ∈ steps, Mentions kind s.message n ∨ Mentions kind s.condition n
  | .cell x, n => ∃ c ∈ cells, c.fid = x ∧ ∃ a ∈ c.assigns, Mentions kind a.content n

/-- What `r` depends on. -/
def DependsOn (kind : F → Kind F) (steps : List (GStep F)) (cells : List (GCell F)) : Node → Node → Prop :=
  Relation.ReflTransGen (Direct kind steps cells)

/-- C28 as stated, for one answer. -/
def Exact (kind : F → Kind F) (steps : List (GStep F)) (cells : List (GCell F)) (r : Node) (a : Ancestors F) : Prop :=
  (a.input = true ↔ DependsOn kind steps cells r .input) ∧
  ∀ c ∈ cells, c ∈ a.cells ↔ DependsOn kind steps cells r (.cell c.fid)

/-- Nothing is hidden from the scan of `t`: what `t` calls is seen. -/
def Visible (kind : F → Kind F) (t : Fm F) : Prop := ∀ n, Mentions kind t n → Seen kind t n

/-- **C28 for cells**, when the assignments hide nothing and no assignment reads an input: the answer for
every cell is exact. -/
theorem C28_cell_partial (steps : List (GStep F)) (cells : List (GCell F)) (hp : GoodProt kind steps cells)
    (hv : ∀ c ∈ cells, ∀ a ∈ c.assigns, Visible kind a.content)
    (hi : ∀ c ∈ cells, ∀ a ∈ c.assigns, ¬ Mentions kind a.content .input) :
    ∃ N g, (∀ fuel, N ≤ fuel → Graph.new kind fuel steps cells = some (some g)) ∧
      ∃ M, ∀ fuel, M ≤ fuel → ∀ c ∈ cells, ∃ a, g.ancestors fuel (.cell c) = .ok a ∧
        Exact kind steps cells (.cell c.fid) a := by
  obtain ⟨N, g, h1, M, h2⟩ := C28_ancestors_partial steps cells hp
  refine ⟨N, g, h1, M, fun fuel hf c hc => ?_⟩
  obtain ⟨a, ha, hin, _, hcs⟩ := (h2 fuel hf).cell c hc
  have key : ∀ x n, DependsOn kind steps cells (.cell x) n →
      ∃ y, n = .cell y ∧ Relation.ReflTransGen (Reads kind cells) x y := by
    intro x n h
    induction h with
    | refl => exact ⟨x, rfl, .refl⟩
    | @tail m n _ h ih =>
      obtain ⟨y, rfl, hy⟩ := ih
      obtain ⟨c', hc', e, b, hb, hm⟩ := h
      cases n with
      | input => exact absurd hm (hi c' hc' b hb)
      | cell z => exact ⟨z, rfl, hy.tail ⟨c', hc', e, b, hb, hv c' hc' b hb _ hm⟩⟩
  refine ⟨a, ha, ?_, ?_⟩
  · rw [hin]
    constructor
    · intro h; cases h
    · intro h
      obtain ⟨y, e, _⟩ := key _ _ h
      cases e
  · intro c' hc'
    rw [hcs c' hc']
    constructor
    · intro h
      generalize c'.fid = z at h
      induction h with
      | refl => exact .refl
      | @tail y z _ h ih =>
        obtain ⟨c₀, hc₀, e, b, hb, hs⟩ := h
        exact ih.tail ⟨c₀, hc₀, e, b, hb, hs.mentions⟩
    · intro h
      obtain ⟨y, e, hy⟩ := key _ _ h
      cases e
      exact hy

/-- The answer for the input is exact if and only if no step (directly or not) calls a cell. -/
theorem C28_input_partial (steps : List (GStep F)) (cells : List (GCell F)) (hp : GoodProt kind steps cells) :
    ∃ N g, (∀ fuel, N ≤ fuel → Graph.new kind fuel steps cells = some (some g)) ∧
      ∃ M, ∀ fuel, M ≤ fuel → ∃ a, g.ancestors fuel .input = .ok a ∧
        (Exact kind steps cells .input a ↔ ∀ c ∈ cells, ¬ DependsOn kind steps cells .input (.cell c.fid)) := by
  obtain ⟨N, g, h1, M, h2⟩ := C28_ancestors_partial steps cells hp
  refine ⟨N, g, h1, M, fun fuel hf => ?_⟩
  obtain ⟨a, ha, hin, hcs⟩ := (h2 fuel hf).input
  refine ⟨a, ha, ?_⟩
  constructor
  · intro h c hc hd
    have := (h.2 c hc).2 hd
    rw [hcs] at this
    cases this
  · intro h
    refine ⟨⟨fun _ => .refl, fun _ => hin⟩, fun c hc => ⟨fun hm => ?_, fun hd => absurd hd (h c hc)⟩⟩
    rw [hcs] at hm
    cases hm

theorem preCells_ok (g : Graph F) (fuel : Nat) (anc : GCell F → Ancestors F) (l : List (GCell F))
    (h : ∀ c ∈ l, g.ancestors fuel (.cell c) = .ok (anc c)) : g.preCells fuel l = some (l.map (fun c => (c, anc c))) := by
  induction l with
  | nil => rfl
  | cons c l ih =>
    simp [Graph.preCells, h c (List.mem_cons_self ..), ih (fun c' hc' => h c' (List.mem_cons_of_mem _ hc'))]

theorem new_cells {fuel : Nat} {steps : List (GStep F)} {g : Graph F} (h : Graph.new kind fuel steps cells = some (some g)) :
    g.cells.map Prod.fst = cells := by
  unfold Graph.new at h
  simp only [Option.map_eq_some_iff] at h
  obtain ⟨_, _, found, _, rfl⟩ := h
  exact ofEdges_cells cells found

/-- **C28 for the preprocessed graph**: it is computed without panic and answers as the graph does. -/
theorem C28_preprocessed_partial (steps : List (GStep F)) (cells : List (GCell F)) (hp : GoodProt kind steps cells) :
    ∃ N g, (∀ fuel, N ≤ fuel → Graph.new kind fuel steps cells = some (some g)) ∧
      ∃ M, ∀ fuel, M ≤ fuel → ∃ pg, g.preprocess fuel = some pg ∧
        AncSpec kind steps cells (fun r => match pg.ancestors r with
          | some a => .ok a
          | none => .notFound) := by
  obtain ⟨N, g, h1, M, h2⟩ := C28_ancestors_partial steps cells hp
  refine ⟨N, g, h1, M, fun fuel hf => ?_⟩
  have hs := h2 fuel hf
  obtain ⟨ai, hai, hai'⟩ := hs.input
  obtain ⟨ae, hae, hae'⟩ := hs.exec
  let anc : GCell F → Ancestors F := fun c => match g.ancestors fuel (.cell c) with
    | .ok a => a
    | _ => ⟨false, []⟩
  have hanc : ∀ c ∈ cells, g.ancestors fuel (.cell c) = .ok (anc c) := by
    intro c hc
    obtain ⟨a, ha, _⟩ := hs.cell c hc
    simp only [anc, ha]
  have hgc := new_cells (h1 N (Nat.le_refl _))
  have hpre : g.preprocess fuel = some ⟨ai, ae, cells.map (fun c => (c, anc c))⟩ := by
    unfold Graph.preprocess
    rw [hgc, preCells_ok g fuel anc cells hanc, hai, hae]
  refine ⟨_, hpre, ⟨⟨ai, rfl, hai'⟩, ?_, ?_, ⟨ae, rfl, hae'⟩⟩⟩
  · intro c hc
    have hfind : ((cells.map (fun c => (c, anc c))).reverse.find? (fun p => p.1.fid == c.fid)) = some (c, anc c) := by
      cases hf' : (cells.map (fun c => (c, anc c))).reverse.find? (fun p => p.1.fid == c.fid) with
      | none =>
        rw [List.find?_eq_none] at hf'
        have := hf' (c, anc c) (by simp; exact ⟨c, hc, rfl, rfl⟩)
        simp at this
      | some p =>
        have h3 := List.mem_of_find?_eq_some hf'
        have h4 := List.find?_some hf'
        simp only [List.mem_reverse, List.mem_map] at h3
        obtain ⟨c', hc', rfl⟩ := h3
        have e : c'.fid = c.fid := by simpa using h4
        obtain ⟨i, hi⟩ := List.getElem?_of_mem hc'
        obtain ⟨j, hj⟩ := List.getElem?_of_mem hc
        obtain rfl := idx_unique hp.nodup hi hj e
        rw [hi] at hj; cases hj; rfl
    obtain ⟨a, ha, h'⟩ := hs.cell c hc
    refine ⟨a, ?_, h'⟩
    simp only [PreGraph.ancestors, hfind, Option.map_some]
    rw [hanc c hc] at ha
    exact ha
  · intro c hc
    have : ((cells.map (fun c => (c, anc c))).reverse.find? (fun p => p.1.fid == c.fid)) = none := by
      rw [List.find?_eq_none]
      intro p hp'
      simp only [List.mem_reverse, List.mem_map] at hp'
      obtain ⟨c', hc', rfl⟩ := hp'
      simp only [beq_iff_eq]
      intro e
      exact hc (List.mem_map.2 ⟨c', hc', e⟩)
    simp only [PreGraph.ancestors, this, Option.map_none]

end graph

/-! ### Examples and counterexamples -/

namespace Ex

/-- The symbols of the examples: one step, the macros, three cells, a quantifier symbol, a function. -/
inductive Sy
  | s | msg | input | c0 | c1 | c2 | q | f
  deriving DecidableEq

/-- The time point of the only step. -/
def tp : Fm Sy := .app .s []
def input : Fm Sy := .app .input [tp]
def cell (c : Sy) : Fm Sy := .app c [tp]

/-- A protocol given by the message of its step and the contents of the three cells. -/
structure P where
  message : Fm Sy
  c0 : Fm Sy
  c1 : Fm Sy
  c2 : Fm Sy

def P.step (p : P) : GStep Sy := ⟨.s, [], .app .f [], p.message⟩
def P.cells (p : P) : List (GCell Sy) :=
  [⟨0, [⟨p.step, [], p.c0, []⟩]⟩, ⟨1, [⟨p.step, [], p.c1, []⟩]⟩, ⟨2, [⟨p.step, [], p.c2, []⟩]⟩]

/-- The quantifier symbol `q` quantifies over `c1`. -/
def P.kind (p : P) : Sy → Kind Sy
  | .s => .step p.step
  | .msg => .mac .msg
  | .input => .mac .input
  | .c0 => .cell ⟨0, [⟨p.step, [], p.c0, []⟩]⟩
  | .c1 => .cell ⟨1, [⟨p.step, [], p.c1, []⟩]⟩
  | .c2 => .cell ⟨2, [⟨p.step, [], p.c2, []⟩]⟩
  | .q => .taq [⟨0, .index⟩] [] [cell .c1]
  | .f => .plain

def P.ancestors (p : P) (r : MacroRef Sy) : Option (Bool × List Nat) :=
  match Graph.new p.kind 100 [p.step] p.cells with
  | some (some g) => match g.ancestors 100 r with
    | .ok a => some (a.input, a.cells.map GCell.fid)
    | _ => none
  | _ => none

def P.ref (p : P) (i : Nat) : MacroRef Sy := .cell ⟨i, (p.cells[i]?.map GCell.assigns).getD []⟩

/-- A chain of cells `c0 := c1`, `c1 := f(c2)`, `c2 := f`. -/
def chain : P := ⟨.app .f [input], cell .c1, .app .f [cell .c2], .app .f []⟩

theorem chain_good : GoodProt chain.kind [chain.step] chain.cells := by
  have hf : chain.kind .f = .plain := rfl
  have hin : Clean chain.kind chain.cells input := .input (f := Sy.input) (g := Sy.s) rfl rfl
  have hc1 : Clean chain.kind chain.cells (cell .c1) :=
    .cell (f := Sy.c1) rfl (by simp) ⟨chain.cells[1], by simp [P.cells], rfl⟩
  have hc2 : Clean chain.kind chain.cells (cell .c2) :=
    .cell (f := Sy.c2) rfl (by simp) ⟨chain.cells[2], by simp [P.cells], rfl⟩
  have h0 : Clean chain.kind chain.cells (.app .f []) := .other (.inl hf) (by simp)
  refine ⟨by decide, ?_, ?_⟩
  · intro s hs
    rw [List.mem_singleton.1 hs]
    exact ⟨h0, .other (.inl hf) (by simpa using hin)⟩
  · intro c hc a ha
    simp only [P.cells, List.mem_cons, List.not_mem_nil, or_false] at hc
    rcases hc with rfl | rfl | rfl <;> (rw [List.mem_singleton.1 ha])
    · exact hc1
    · exact .other (.inl hf) (by simpa using hc2)
    · exact h0

example : chain.ancestors (chain.ref 0) = some (false, [0, 1, 2]) ∧ chain.ancestors (chain.ref 1) = some (false, [1, 2]) ∧
    chain.ancestors .input = some (true, []) := by decide

theorem mentions_c1 (p : P) : Mentions p.kind (cell .c1) (.cell 1) :=
  Mentions.cell (kind := p.kind) (f := Sy.c1) (c := ⟨1, [⟨p.step, [], p.c1, []⟩]⟩) rfl

/-- `c0 := input`, and the step sends `c1`. -/
def viaInput : P := ⟨cell .c1, input, .app .f [], .app .f []⟩

/-- **C28 is false of the code (1).** A cell that stores an input depends on the input, and on the cells
that earlier messages contain; neither is reported. -/
theorem C28_cell_counterexample :
    DependsOn viaInput.kind [viaInput.step] viaInput.cells (.cell 0) .input ∧
    DependsOn viaInput.kind [viaInput.step] viaInput.cells (.cell 0) (.cell 1) ∧
    viaInput.ancestors (viaInput.ref 0) = some (false, [0]) := by
  have h : Direct viaInput.kind [viaInput.step] viaInput.cells (.cell 0) .input :=
    ⟨viaInput.cells[0], by simp [P.cells], rfl, _, List.mem_singleton.2 rfl, .input (f := Sy.input) rfl⟩
  have h' : Direct viaInput.kind [viaInput.step] viaInput.cells .input (.cell 1) :=
    ⟨viaInput.step, List.mem_singleton.2 rfl, .inl (mentions_c1 viaInput)⟩
  exact ⟨.single h, .tail (.single h) h', by decide⟩

/-- **C28 is false of the code (2).** The input depends on the cells that messages contain; none is
reported. -/
theorem C28_input_counterexample :
    DependsOn viaInput.kind [viaInput.step] viaInput.cells .input (.cell 1) ∧
    viaInput.ancestors .input = some (true, []) :=
  ⟨.single ⟨viaInput.step, List.mem_singleton.2 rfl, .inl (mentions_c1 viaInput)⟩, by decide⟩

/-- `c0 := q()` where `q` quantifies over `c1`. -/
def viaQuantifier : P := ⟨.app .f [], .app .q [], .app .f [], .app .f []⟩

/-- **C28 is false of the code (3).** What is below a quantifier of the term algebra is not looked at. -/
theorem C28_quantifier_counterexample :
    DependsOn viaQuantifier.kind [viaQuantifier.step] viaQuantifier.cells (.cell 0) (.cell 1) ∧
    viaQuantifier.ancestors (viaQuantifier.ref 0) = some (false, [0]) := by
  refine ⟨.single ⟨viaQuantifier.cells[0], by simp [P.cells], rfl, _, List.mem_singleton.2 rfl, ?_⟩, by decide⟩
  exact .taq (f := Sy.q) rfl (List.mem_singleton.2 rfl) (mentions_c1 viaQuantifier)

/-- A step whose message names itself. -/
def selfMsg : P := ⟨.app .msg [tp], .app .f [], .app .f [], .app .f []⟩

/-- **C28, termination.** A step whose message calls its own message makes the construction of the graph run
forever. -/
theorem C28_diverges (fuel : Nat) : Graph.new selfMsg.kind fuel [selfMsg.step] selfMsg.cells = none := by
  have h : toNodes selfMsg.kind selfMsg.cells fuel selfMsg.message = none := by
    apply runPile_diverges (toNodeIter selfMsg.kind selfMsg.cells) (fun f _ => f = selfMsg.message)
    · rintro f p rfl
      exact ⟨selfMsg.message, (), by
        simp [toNodeIter, toNodeVisit, selfMsg, P.kind, tp, GStep.applyMessage, P.step, Fm.applySubstitution, Fm.applySome,
          Fm.applyFn, Fm.applyFns, Fm.vars, Fm.varss], rfl⟩
    · rfl
  have h0 : scanAll selfMsg.kind selfMsg.cells fuel [(.message, selfMsg.message)] = none := by
    simp [scanAll, h]
  have h1 : ∀ l, scanAll selfMsg.kind selfMsg.cells fuel ((.message, selfMsg.message) :: l) = none := by
    intro l; simp [scanAll, h]
  unfold Graph.new scanned
  simp only [List.flatMap_cons, List.flatMap_nil, List.append_nil, List.cons_append, List.nil_append]
  rw [show selfMsg.step.message = selfMsg.message from rfl]
  conv => lhs; arg 2; unfold scanAll
  rw [h1]
  cases toNodes selfMsg.kind selfMsg.cells fuel selfMsg.step.condition <;> rfl

end Ex

/-! ### C29: instantiating a step -/

/-- The specification: the `i`-th parameter is replaced by the `i`-th argument, simultaneously. -/
def instSpec (vars : List Var) (args : List (Fm F)) : Subst F := fun v =>
  match vars.findIdx? (fun w => w.id == v.id) with
  | some i => args[i]?.getD (.var v)
  | none => .var v

theorem zip_get_spec (ids : List Nat) (args : List (Fm F)) (hl : ids.length = args.length) (v : Var) :
    MSubst.get (ids.zip args) v = match ids.findIdx? (fun i => i == v.id) with
      | some i => args[i]?.getD (.var v)
      | none => .var v := by
  have := findIdx_zip ids args hl v
  rw [← this]
  cases ids.findIdx? (fun i => i == v.id) <;> rfl

/-- **C29, what holds.** When the parameters of a step are numbered `1, 2, ..` in order, asking for its
message or condition at arguments gives the content with the `i`-th parameter replaced by the `i`-th
argument, and never panics. -/
theorem C29_numbered_from_one_partial (s : GStep F) (args : List (Fm F)) (hl : args.length = s.vars.length)
    (hn : s.vars.map Var.id = (List.range s.vars.length).map (· + 1)) :
    s.applyMessage args = some (Subst.apply (instSpec s.vars args) s.message) ∧
    s.applyCondition args = some (Subst.apply (instSpec s.vars args) s.condition) := by
  have hl' : ((List.range s.vars.length).map (· + 1)).length = args.length := by simp [hl]
  have e : ∀ v, MSubst.get (((List.range s.vars.length).map (· + 1)).zip args) v = instSpec s.vars args v := by
    intro v
    rw [zip_get_spec _ _ hl', ← hn]
    unfold instSpec
    rw [List.findIdx?_map]
    rfl
  constructor
  · unfold GStep.applyMessage
    rw [C01_apply_substitution _ _ hl']
    congr 1
    exact apply_congr _ _ _ (fun v _ => e v)
  · unfold GStep.applyCondition
    rw [C01_apply_substitution _ _ hl']
    congr 1
    exact apply_congr _ _ _ (fun v _ => e v)

/-- Such a step, with two parameters. -/
example : let s : GStep Nat := ⟨0, [⟨1, .index⟩, ⟨2, .index⟩], .app 1 [], .app 2 [.var ⟨2, .index⟩, .var ⟨1, .index⟩]⟩
    s.applyMessage [.app 7 [], .var ⟨1, .index⟩] = some (.app 2 [.var ⟨1, .index⟩, .app 7 []]) := by decide

/-- Whatever the numbers, a formula in which none of `1, .., arity` occurs is returned unchanged. -/
theorem C29_unchanged (s : GStep F) (args : List (Fm F)) (hl : args.length = s.vars.length)
    (h : ∀ v ∈ s.message.vars, v.id = 0 ∨ s.vars.length < v.id) : s.applyMessage args = some s.message := by
  have hl' : ((List.range s.vars.length).map (· + 1)).length = args.length := by simp [hl]
  unfold GStep.applyMessage
  rw [C01_apply_substitution _ _ hl']
  congr 1
  conv => rhs; rw [← apply_id s.message]
  apply apply_congr
  intro v hv
  apply C03_no_match
  intro hm
  obtain ⟨p, hp, e⟩ := List.mem_map.1 hm
  have h1 := (List.of_mem_zip (show (p.1, p.2) ∈ _ from hp)).1
  simp only [List.mem_map, List.mem_range] at h1
  obtain ⟨k, hk, hk'⟩ := h1
  have := h v hv
  omega

/-- **C29 is false of the code.** The parser numbers the parameters of a step from `0`
(`C29_loaded`): the only parameter of a one-parameter step is not replaced at all, and
in a two-parameter step the second parameter gets the first argument while the first is kept. -/
theorem C29_counterexample :
    let s1 : GStep Nat := ⟨0, [⟨0, .index⟩], .app 1 [], .app 2 [.var ⟨0, .index⟩]⟩
    let s2 : GStep Nat := ⟨0, [⟨0, .index⟩, ⟨1, .index⟩], .app 1 [], .app 2 [.var ⟨0, .index⟩, .var ⟨1, .index⟩]⟩
    s1.applyMessage [.app 7 []] = some s1.message ∧
    s1.applyMessage [.app 7 []] ≠ some (Subst.apply (instSpec s1.vars [.app 7 []]) s1.message) ∧
    s2.applyMessage [.app 7 [], .app 8 []] = some (.app 2 [.var ⟨0, .index⟩, .app 7 []]) := by decide

end Dep
end CV
