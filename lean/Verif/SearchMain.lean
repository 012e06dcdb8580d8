import Verif.SearchParts
set_option linter.unusedSimpArgs false
/-
Completeness of the search (C25, C26) with the dependency graph the code builds and the ways of
descending it uses.
-/
namespace CV
namespace Dep
open Fm
variable {F D : Type}

/-! ### More fuel gives the same graph -/

theorem scanAll_mono (kind : F → Kind F) (cells : List (GCell F)) {n m : Nat} (hnm : n ≤ m) :
    ∀ (l : List (FromNode × Fm F)) (r : Option (List Edge)), scanAll kind cells n l = some r → scanAll kind cells m l = some r := by
  intro l
  induction l with
  | nil => intro r h; simpa [scanAll] using h
  | cons p l ih =>
    obtain ⟨fr, t⟩ := p
    intro r h
    simp only [scanAll] at h ⊢
    cases h1 : toNodes kind cells n t with
    | none => rw [h1] at h; simp at h
    | some ns =>
      have h1' : toNodes kind cells m t = some ns := runPile_mono _ n m _ _ h1 hnm
      cases h2 : scanAll kind cells n l with
      | none => rw [h1, h2] at h; simp at h
      | some q =>
        rw [h1, h2] at h
        rw [h1', ih q h2]
        exact h

theorem graph_new_mono (kind : F → Kind F) {n m : Nat} (hnm : n ≤ m) (steps : List (GStep F)) (cells : List (GCell F))
    {r : Option (Graph F)} (h : Graph.new kind n steps cells = some r) : Graph.new kind m steps cells = some r := by
  simp only [Graph.new, Option.map_eq_some_iff] at h ⊢
  obtain ⟨a, ha, e⟩ := h
  exact ⟨a, scanAll_mono kind cells hnm _ _ ha, e⟩

theorem dfs_mono (g : Graph F) : ∀ (n m : Nat), n ≤ m → ∀ (vis : List Bool) (st : List Nat) (r : Option (List Bool)),
    g.dfs n vis st = some r → g.dfs m vis st = some r := by
  intro n
  induction n with
  | zero =>
    intro m _ vis st r h
    cases st with
    | nil => cases m <;> simpa [Graph.dfs] using h
    | cons i st => simp [Graph.dfs] at h
  | succ n ih =>
    intro m hm vis st r h
    obtain ⟨m, rfl⟩ : ∃ k, m = k + 1 := ⟨m - 1, by omega⟩
    cases st with
    | nil => simpa [Graph.dfs] using h
    | cons i st =>
      simp only [Graph.dfs] at h ⊢
      split at h
      · simpa using h
      · exact ih m (by omega) _ _ _ h
      · split at h
        · rw [if_pos ‹_›]; exact ih m (by omega) _ _ _ h
        · rw [if_neg ‹_›]; exact h

theorem ancestors_mono (g : Graph F) {n m : Nat} (hnm : n ≤ m) (r : MacroRef F) {a : Ancestors F}
    (h : g.ancestors n r = .ok a) : g.ancestors m r = .ok a := by
  simp only [Graph.ancestors] at h ⊢
  cases hs : g.seeds r with
  | none => rw [hs] at h; cases h
  | some l =>
    rw [hs] at h
    simp only at h ⊢
    cases hd : g.dfs n (List.replicate (g.cells.length + 1) false) l.reverse with
    | none => rw [hd] at h; cases h
    | some q =>
      rw [hd] at h
      rw [dfs_mono g n m hnm _ _ _ hd]
      exact h

theorem preCells_mono (g : Graph F) {n m : Nat} (hnm : n ≤ m) : ∀ (l : List (GCell F)) (r : List (GCell F × Ancestors F)),
    g.preCells n l = some r → g.preCells m l = some r := by
  intro l
  induction l with
  | nil => intro r h; simpa [Graph.preCells] using h
  | cons c l ih =>
    intro r h
    simp only [Graph.preCells] at h ⊢
    split at h
    · rename_i a l' h1 h2
      rw [ancestors_mono g hnm _ h1, ih _ h2]
      exact h
    · cases h

theorem preprocess_mono (g : Graph F) {n m : Nat} (hnm : n ≤ m) {pg : PreGraph F} (h : g.preprocess n = some pg) :
    g.preprocess m = some pg := by
  simp only [Graph.preprocess] at h ⊢
  split at h
  · rename_i c i e h1 h2 h3
    rw [preCells_mono g hnm _ _ h1, ancestors_mono g hnm _ h2, ancestors_mono g hnm _ h3]
    exact h
  · cases h

/-- The preprocessed graph the code computes for the protocol. -/
def Built (kind : F → Kind F) (steps : List (GStep F)) (cells : List (GCell F)) (pg : PreGraph F) : Prop :=
  ∃ n m g, Graph.new kind n steps cells = some (some g) ∧ g.preprocess m = some pg

/-- What `C28_preprocessed_partial` says of the graph the code computes. -/
theorem Built.spec {kind : F → Kind F} {steps : List (GStep F)} {cells : List (GCell F)} {pg : PreGraph F}
    (h : Built kind steps cells pg) (hp : GoodProt kind steps cells) :
    AncSpec kind steps cells (fun r => match pg.ancestors r with
          | some a => .ok a
          | none => .notFound) := by
  obtain ⟨n, m, g, h1, h2⟩ := h
  obtain ⟨N, g', h3, K, h4⟩ := C28_preprocessed_partial steps cells hp
  have e : g = g' := by
    have := graph_new_mono kind (Nat.le_max_left n N) steps cells h1
    rw [h3 _ (Nat.le_max_right n N)] at this
    simp only [Option.some.injEq] at this
    exact this.symm
  subst e
  obtain ⟨pg', h5, h6⟩ := h4 (max m K) (Nat.le_max_right m K)
  rw [preprocess_mono g (Nat.le_max_left m K) h2] at h5
  simp only [Option.some.injEq] at h5
  rw [h5]; exact h6

/-- The cells the graph reports are cells of the protocol. -/
theorem AncSpec.cells_sub {kind : F → Kind F} {steps : List (GStep F)} {cells : List (GCell F)} {pg : PreGraph F}
    (h : AncSpec kind steps cells (fun r => match pg.ancestors r with
          | some a => .ok a
          | none => .notFound)) (r : MacroRef F) (anc : Ancestors F) (ha : pg.ancestors r = some anc) :
    ∀ d ∈ anc.cells, d ∈ cells := by
  have sub : ∀ r, (∃ a, (match pg.ancestors r with
          | some a => AncRes.ok a
          | none => .notFound) = .ok a ∧ a.cells.Sublist cells) → ∀ anc, pg.ancestors r = some anc → ∀ d ∈ anc.cells, d ∈ cells := by
    rintro r ⟨a, h1, h2⟩ anc ha d hd
    rw [ha] at h1
    simp only [AncRes.ok.injEq] at h1
    subst h1
    exact h2.subset hd
  cases r with
  | input =>
    obtain ⟨a, h1, _, h2⟩ := h.input
    exact sub _ ⟨a, h1, by rw [h2]; exact List.nil_sublist _⟩ _ ha
  | exec =>
    obtain ⟨a, h1, _, h2, _⟩ := h.exec
    exact sub _ ⟨a, h1, h2⟩ _ ha
  | cell c =>
    by_cases hc : c.fid ∈ cells.map GCell.fid
    · obtain ⟨c', hc', e⟩ := List.mem_map.1 hc
      obtain ⟨a, h1, _, h2, _⟩ := h.cell c' hc'
      have e' : pg.ancestors (.cell c) = pg.ancestors (.cell c') := by simp only [PreGraph.ancestors, e]
      rw [e'] at ha
      exact sub _ ⟨a, h1, h2⟩ _ ha
    · have := h.absent c hc
      simp only [ha] at this
      cases this

section
variable [DecidableEq F] {C : SearchCfg F} {cells : List (GCell F)} {M : Str F D} {S : F → Prop}
  {roots : List (Fm F × List Var)} {outer : Nat → Prop} {x : Fm F}

/-- **C26: the search for authenticated messages is complete**, with the dependency graph of the code: for a
protocol whose steps call inputs and cells at their own time, whose assignments hide nothing from
the graph, and in which either no assignment reads an input or no step reads a cell. A value of the pattern
that occurs in a root — otherwise than as the `mac` being verified — is found. `_partial`: as
`C26_search_complete_partial`. -/
theorem C26_authenticated_partial (eqTa mac verify : F) (hA : C.A = .ufMain C.L eqTa mac verify false)
    (hsem : Sem C.L M) (htr : ∀ a b c, Lt C.L M a b → Lt C.L M b c → Lt C.L M a c)
    (hp : ProtOK C.L C.steps cells) (hgood : GoodProt C.L.kind C.steps cells) (hown : OwnProt C.L C.steps cells)
    (hvis : ∀ c ∈ cells, ∀ a ∈ c.assigns, Visible C.L.kind a.content)
    (hin : (∀ c ∈ cells, ∀ a ∈ c.assigns, ¬ Mentions C.L.kind a.content .input) ∨
      ∀ s ∈ C.steps, ∀ x, ¬ Mentions C.L.kind s.message (.cell x) ∧ ¬ Mentions C.L.kind s.condition (.cell x))
    (hG : Built C.L.kind C.steps cells C.G)
    (hr : ∀ t bv, (t, bv) ∈ roots → NoQuant t ∧ VarsIn outer bv t ∧ (bv.map Var.id).Nodup)
    (hcl : NoClash C .all roots outer) (hx : ∀ v ∈ x.vars, outer v.id)
    (hu : UnifOK C M S (fun t => ∃ st, Elem C .all roots t st) x)
    {fuel : Nat} {res : List (Option (List Var × Fm F))} (hs : search C fuel x .all roots = some res) (hn : none ∉ res)
    {r : Fm F} {bv : List Var} (hroot : (r, bv) ∈ roots) {ρ ρ₀ κ : Valn D} (hoff : ∀ i, i ∉ bv.map Var.id → ρ₀ i = ρ i)
    (hdom : InDom M bv ρ₀) {f : F} {args : List (Fm F)}
    (ho : Occurs C.L C.steps M (MainPart mac verify) MacroRef.notExec (r, ρ₀) (.app f args, κ))
    (hf : MayBe C.L f .message) (hv : eval M κ (.app f args) = eval M ρ x) :
    ∃ vs φ, some (vs, φ) ∈ res ∧ quantVal M .ex vs (fun τ => M.truth (eval M τ φ)) ρ := by
  have hspec := hG.spec hgood
  exact C26_search_complete_partial hsem hp (hA ▸ ufMain_shrinks _ _ _ _ _) (hA ▸ MainPart.down _ _ _ _)
    (hown.timed M _ (MainPart.proper mac verify) htr)
    (hown.graphOK hvis hin hp.cells C.G hspec M _ (MainPart.proper mac verify)) (AncSpec.cells_sub hspec)
    hr hcl hx hu hs hn hroot hoff hdom ho (by rw [hA]; exact hf) hv

/-- **C26 with `hmac`.** The same when comparing with a `mac` counts as verifying it, for what the code
descends into (`HmacSeen`; `C26_hmac_counterexample` shows what it does not). -/
theorem C26_authenticated_hmac_partial (eqTa mac verify : F) (hA : C.A = .ufMain C.L eqTa mac verify true)
    (hev : C.L.eq ≠ verify) (hev' : eqTa ≠ verify)
    (hsem : Sem C.L M) (htr : ∀ a b c, Lt C.L M a b → Lt C.L M b c → Lt C.L M a c)
    (hp : ProtOK C.L C.steps cells) (hgood : GoodProt C.L.kind C.steps cells) (hown : OwnProt C.L C.steps cells)
    (hvis : ∀ c ∈ cells, ∀ a ∈ c.assigns, Visible C.L.kind a.content)
    (hin : (∀ c ∈ cells, ∀ a ∈ c.assigns, ¬ Mentions C.L.kind a.content .input) ∨
      ∀ s ∈ C.steps, ∀ x, ¬ Mentions C.L.kind s.message (.cell x) ∧ ¬ Mentions C.L.kind s.condition (.cell x))
    (hG : Built C.L.kind C.steps cells C.G)
    (hr : ∀ t bv, (t, bv) ∈ roots → NoQuant t ∧ VarsIn outer bv t ∧ (bv.map Var.id).Nodup)
    (hcl : NoClash C .all roots outer) (hx : ∀ v ∈ x.vars, outer v.id)
    (hu : UnifOK C M S (fun t => ∃ st, Elem C .all roots t st) x)
    {fuel : Nat} {res : List (Option (List Var × Fm F))} (hs : search C fuel x .all roots = some res) (hn : none ∉ res)
    {r : Fm F} {bv : List Var} (hroot : (r, bv) ∈ roots) {ρ ρ₀ κ : Valn D} (hoff : ∀ i, i ∉ bv.map Var.id → ρ₀ i = ρ i)
    (hdom : InDom M bv ρ₀) {f : F} {args : List (Fm F)}
    (ho : Occurs C.L C.steps M (HmacSeen C.L.eq eqTa mac verify) MacroRef.notExec (r, ρ₀) (.app f args, κ))
    (hf : MayBe C.L f .message) (hv : eval M κ (.app f args) = eval M ρ x) :
    ∃ vs φ, some (vs, φ) ∈ res ∧ quantVal M .ex vs (fun τ => M.truth (eval M τ φ)) ρ := by
  have hspec := hG.spec hgood
  exact C26_search_complete_partial hsem hp (hA ▸ ufMain_shrinks _ _ _ _ _) (hA ▸ HmacSeen.down _ _ _ _ hev hev')
    (hown.timed M _ (HmacSeen.proper _ _ mac verify) htr)
    (hown.graphOK hvis hin hp.cells C.G hspec M _ (HmacSeen.proper _ _ mac verify)) (AncSpec.cells_sub hspec)
    hr hcl hx hu hs hn hroot hoff hdom ho (by rw [hA]; exact hf) hv

/-- **C25: the search for keys is complete**: wherever in an execution the value of the key occurs, otherwise
than as the key of `mac` or `verify`, it is found by the search through the contents of the protocol,
although no macro is unfolded. `_partial`: as `C25_search_complete_partial`. -/
theorem C25_key_partial (mac verify cast : F) (hmv : mac ≠ verify) (hA : C.A = .ufKey mac verify cast)
    (hp : ProtOK C.L C.steps cells) (hgood : GoodProt C.L.kind C.steps cells) (hsem : Sem C.L M)
    (hG : Built C.L.kind C.steps cells C.G) (hroots : ∀ p ∈ topLevel C.steps cells, p ∈ roots)
    (hr : ∀ t bv, (t, bv) ∈ roots → NoQuant t ∧ VarsIn outer bv t ∧ (bv.map Var.id).Nodup)
    (hcl : NoClash C .noRecMacro roots outer) (hx : ∀ v ∈ x.vars, outer v.id)
    (hu : UnifOK C M S (fun t => ∃ st, Elem C .noRecMacro roots t st) x)
    {fuel : Nat} {res : List (Option (List Var × Fm F))} (hs : search C fuel x .noRecMacro roots = some res) (hn : none ∉ res)
    {r : Fm F} {bv : List Var} (hroot : (r, bv) ∈ roots) {ρ ρ₀ κ : Valn D} (hoff : ∀ i, i ∉ bv.map Var.id → ρ₀ i = ρ i)
    (hdom : InDom M bv ρ₀) {f : F} {args : List (Fm F)}
    (ho : Occurs C.L C.steps M (KeyPart mac verify cast) (fun _ => True) (r, ρ₀) (.app f args, κ))
    (hf : MayBe C.L f .name) (hv : eval M κ (.app f args) = eval M ρ x) :
    ∃ vs φ, some (vs, φ) ∈ res ∧ quantVal M .ex vs (fun τ => M.truth (eval M τ φ)) ρ :=
  C25_search_complete_partial .noRecMacro rfl hp hsem (hA ▸ ufKey_shrinks _ _ _) (hA ▸ KeyPart.down _ _ _ hmv)
    (AncSpec.cells_sub (hG.spec hgood)) hroots hr hcl hx hu hs hn hroot hoff hdom ho (by rw [hA]; exact hf) hv

/-- **C25: the side condition.** When the search for the key finds nothing, which is when the axiom is
generated, the key occurs nowhere in an execution but as the key of `mac` or `verify`. `_partial`: as
`C25_key_partial`. -/
theorem C25_accepted_partial (mac verify cast : F) (hmv : mac ≠ verify) (hA : C.A = .ufKey mac verify cast)
    (hp : ProtOK C.L C.steps cells) (hgood : GoodProt C.L.kind C.steps cells) (hsem : Sem C.L M)
    (hG : Built C.L.kind C.steps cells C.G) (hroots : ∀ p ∈ topLevel C.steps cells, p ∈ roots)
    (hr : ∀ t bv, (t, bv) ∈ roots → NoQuant t ∧ VarsIn outer bv t ∧ (bv.map Var.id).Nodup)
    (hcl : NoClash C .noRecMacro roots outer) (hx : ∀ v ∈ x.vars, outer v.id)
    (hu : UnifOK C M S (fun t => ∃ st, Elem C .noRecMacro roots t st) x)
    {fuel : Nat} (hs : search C fuel x .noRecMacro roots = some [])
    {r : Fm F} {bv : List Var} (hroot : (r, bv) ∈ roots) {ρ ρ₀ κ : Valn D} (hoff : ∀ i, i ∉ bv.map Var.id → ρ₀ i = ρ i)
    (hdom : InDom M bv ρ₀) {f : F} {args : List (Fm F)} (hf : MayBe C.L f .name)
    (ho : Occurs C.L C.steps M (KeyPart mac verify cast) (fun _ => True) (r, ρ₀) (.app f args, κ)) :
    eval M κ (.app f args) ≠ eval M ρ x := by
  intro hv
  obtain ⟨_, _, h, _⟩ := C25_key_partial mac verify cast hmv hA hp hgood hsem hG hroots hr hcl hx hu hs (by simp) hroot hoff hdom
    ho hf hv
  cases h

end
end Dep
end CV
