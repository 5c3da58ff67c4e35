import Verif.Props.DisjointSet

/-!
# Minimum spanning forests: specification, and the cut property

The edges are values of an arbitrary type with two end points and a weight; they are not directed.
-/
namespace Props
open Py Model Spec
variable {κ ε : Type} [DecidableEq κ] [DecidableEq ε]
set_option linter.unusedSectionVars false

/-! ## Specification -/

section
variable (ends : ε → κ × κ) (w : ε → Int)

/-- The edges connect the two vertices. -/
def Connects (F : List ε) (x y : κ) : Prop := Joined (F.map ends) x y

/-- No edge can be spared: without it, its end points are not connected any more. In other words there is no cycle. -/
def Forest (F : List ε) : Prop := ∀ f F', F.Perm (f :: F') → ¬ Connects ends F' (ends f).1 (ends f).2

/-- A forest of edges of `E` that connects whatever `E` connects. -/
structure SpanningForest (E F : List ε) : Prop where
  sub : ∀ e ∈ F, e ∈ E
  forest : Forest ends F
  spans : ∀ x y, Connects ends E x y → Connects ends F x y

/-- The total weight. -/
def weightOf (F : List ε) : Int := (F.map w).sum

/-- A spanning forest of least total weight. -/
structure MinSpanningForest (E F : List ε) : Prop where
  spanning : SpanningForest ends E F
  least : ∀ F', SpanningForest ends E F' → weightOf w F ≤ weightOf w F'

end

/-! ## Connection -/

variable {ends : ε → κ × κ} {w : ε → Int}

theorem Connects.mono {F G : List ε} (h : ∀ e ∈ F, e ∈ G) {x y : κ} (c : Connects ends F x y) : Connects ends G x y := by
  refine Joined.mono ?_ c
  intro q hq
  obtain ⟨e, he, rfl⟩ := List.mem_map.1 hq
  exact List.mem_map.2 ⟨e, h e he, rfl⟩

theorem Connects.symm {F : List ε} {x y : κ} (c : Connects ends F x y) : Connects ends F y x := Joined.symm _ _ c
theorem Connects.trans {F : List ε} {x y z : κ} (c : Connects ends F x y) (c' : Connects ends F y z) : Connects ends F x z :=
  Joined.trans _ _ _ c c'
theorem Connects.refl {F : List ε} (x : κ) : Connects ends F x x := Joined.refl _
theorem Connects.edge {F : List ε} {e : ε} (h : e ∈ F) : Connects ends F (ends e).1 (ends e).2 :=
  Joined.pair _ _ (List.mem_map.2 ⟨e, h, rfl⟩)

/-- Induction on a connection. -/
theorem Connects.rec' {F : List ε} {P : κ → κ → Prop} (hr : ∀ x, P x x) (hs : ∀ x y, P x y → P y x)
    (ht : ∀ x y z, P x y → P y z → P x z) (he : ∀ e ∈ F, P (ends e).1 (ends e).2) {x y : κ} (c : Connects ends F x y) : P x y := by
  unfold Connects at c
  induction c with
  | refl a => exact hr a
  | pair a b h =>
    obtain ⟨e, he', heq⟩ := List.mem_map.1 h
    have := he e he'
    rwa [heq] at this
  | symm a b h ih => exact hs _ _ ih
  | trans a b c h1 h2 ih1 ih2 => exact ht _ _ _ ih1 ih2

/-- The edges of `F` are connected by `G`. -/
theorem Connects.sub {F G : List ε} (h : ∀ e ∈ F, Connects ends G (ends e).1 (ends e).2) {x y : κ} (c : Connects ends F x y) :
    Connects ends G x y :=
  c.rec' .refl (fun _ _ h => h.symm) (fun _ _ _ h h' => h.trans h') h

/-- What one more edge connects. -/
theorem Connects.cons {F : List ε} {g : ε} {x y : κ} (c : Connects ends (g :: F) x y) :
    Connects ends F x y ∨ (Connects ends F x (ends g).1 ∧ Connects ends F (ends g).2 y) ∨
      (Connects ends F x (ends g).2 ∧ Connects ends F (ends g).1 y) := by
  refine Connects.rec' (P := fun x y => Connects ends F x y ∨ (Connects ends F x (ends g).1 ∧ Connects ends F (ends g).2 y) ∨
      (Connects ends F x (ends g).2 ∧ Connects ends F (ends g).1 y)) (fun x => Or.inl (.refl x)) ?_ ?_ ?_ c
  · rintro x y (h | ⟨h1, h2⟩ | ⟨h1, h2⟩)
    · exact Or.inl h.symm
    · exact Or.inr (Or.inr ⟨h2.symm, h1.symm⟩)
    · exact Or.inr (Or.inl ⟨h2.symm, h1.symm⟩)
  · rintro x y z (h | ⟨h1, h2⟩ | ⟨h1, h2⟩) (h' | ⟨h1', h2'⟩ | ⟨h1', h2'⟩)
    · exact Or.inl (h.trans h')
    · exact Or.inr (Or.inl ⟨h.trans h1', h2'⟩)
    · exact Or.inr (Or.inr ⟨h.trans h1', h2'⟩)
    · exact Or.inr (Or.inl ⟨h1, h2.trans h'⟩)
    · exact Or.inr (Or.inl ⟨h1, h2'⟩)
    · exact Or.inl (h1.trans h2')
    · exact Or.inr (Or.inr ⟨h1, h2.trans h'⟩)
    · exact Or.inl (h1.trans h2')
    · exact Or.inr (Or.inr ⟨h1, h2'⟩)
  · intro e he
    rcases List.mem_cons.1 he with rfl | he
    · exact Or.inr (Or.inl ⟨.refl _, .refl _⟩)
    · exact Or.inl (.edge he)

/-- If `g` is what makes `F` connect the ends of `e`, then `e` would make it connect the ends of `g`. -/
theorem Connects.exchange {F : List ε} {g e : ε} (c : Connects ends (g :: F) (ends e).1 (ends e).2) (hn : ¬ Connects ends F (ends e).1 (ends e).2) :
    Connects ends (e :: F) (ends g).1 (ends g).2 := by
  have m : ∀ {x y}, Connects ends F x y → Connects ends (e :: F) x y := fun c => c.mono (by simp +contextual)
  have he : Connects ends (e :: F) (ends e).1 (ends e).2 := .edge (by simp)
  rcases c.cons with h | ⟨h1, h2⟩ | ⟨h1, h2⟩
  · exact absurd h hn
  · exact (m h1).symm.trans (he.trans (m h2).symm)
  · exact (m h2).trans (he.symm.trans (m h1))

theorem Connects.perm {F G : List ε} (h : F.Perm G) {x y : κ} (c : Connects ends F x y) : Connects ends G x y :=
  c.mono fun _ he => h.mem_iff.1 he

/-! ## Forests -/

theorem Forest.perm {F G : List ε} (h : F.Perm G) (hf : Forest ends F) : Forest ends G := fun f F' hp => hf f F' (h.trans hp)

theorem Forest.cons {F : List ε} {e : ε} (hf : Forest ends F) (he : ¬ Connects ends F (ends e).1 (ends e).2) : Forest ends (e :: F) := by
  intro g F' hp hc
  by_cases hge : g = e
  · subst hge
    exact he (hc.perm hp.symm.cons_inv)
  · have hm : e ∈ F' := by
      have : e ∈ g :: F' := hp.mem_iff.1 (by simp)
      rcases List.mem_cons.1 this with h | h
      · exact absurd h.symm hge
      · exact h
    obtain ⟨F'', hp'⟩ : ∃ F'', F'.Perm (e :: F'') := ⟨_, List.perm_cons_erase hm⟩
    have hp2 : F.Perm (g :: F'') := by
      have : (e :: F).Perm (e :: g :: F'') := hp.trans ((hp'.cons g).trans (List.Perm.swap e g F''))
      exact this.cons_inv
    have h1 := hf g F'' hp2
    have h2 := (hc.perm hp').exchange h1
    exact he (h2.perm hp2.symm)

theorem weightOf_perm {F G : List ε} (h : F.Perm G) : weightOf w F = weightOf w G := by
  unfold weightOf
  induction h with
  | nil => rfl
  | cons x _ ih => simp [ih]
  | swap x y l => simp; omega
  | trans _ _ ih1 ih2 => exact ih1.trans ih2

/-! ## The cut property -/

section
variable (ends : ε → κ × κ) (w : ε → Int)

/-- `C` can be extended to a spanning forest at most as heavy as any given one. -/
def Promising (E C : List ε) : Prop :=
  ∀ F, SpanningForest ends E F → ∃ D, SpanningForest ends E (C ++ D) ∧ weightOf w (C ++ D) ≤ weightOf w F

/-- The edge has exactly one end point in `S`. -/
def Crosses (S : κ → Prop) (e : ε) : Prop := ¬ (S (ends e).1 ↔ S (ends e).2)
end

theorem Promising.nil (E : List ε) : Promising ends w E [] := fun F hF => ⟨F, by simpa using hF, by simp⟩

theorem Promising.perm {E C C' : List ε} (h : C.Perm C') (hp : Promising ends w E C) : Promising ends w E C' := by
  intro F hF
  obtain ⟨D, hD, hw⟩ := hp F hF
  have hq : (C ++ D).Perm (C' ++ D) := h.append_right D
  exact ⟨D, ⟨fun e he => hD.sub e (hq.mem_iff.2 he), hD.forest.perm hq, fun x y c => (hD.spans x y c).perm hq⟩, by rw [← weightOf_perm hq]; exact hw⟩

theorem noncrossing_connects {S : κ → Prop} {F : List ε} (h : ∀ e ∈ F, ¬ Crosses ends S e) {x y : κ} (c : Connects ends F x y) : S x ↔ S y :=
  c.rec' (P := fun x y => S x ↔ S y) (fun _ => Iff.rfl) (fun _ _ h => h.symm) (fun _ _ _ h h' => h.trans h') fun e he =>
    Classical.not_not.1 (h e he)

/-- Adding edges one at a time until the ends of `e` are connected. -/
theorem first_connecting {N : List ε} {x y : κ} : ∀ (X : List ε), ¬ Connects ends N x y → Connects ends (N ++ X) x y →
    ∃ a g b, X = a ++ g :: b ∧ ¬ Connects ends (N ++ a) x y ∧ Connects ends (g :: (N ++ a)) x y := by
  intro X
  induction X generalizing N with
  | nil => intro h1 h2; exact absurd (by simpa using h2) h1
  | cons g X ih =>
    intro h1 h2
    by_cases h : Connects ends (g :: N) x y
    · exact ⟨[], g, X, rfl, by simpa using h1, by simpa using h⟩
    · obtain ⟨a, g', b, e, h3, h4⟩ := ih (N := N ++ [g]) (fun c => h (c.mono (by grind))) (by simpa using h2)
      exact ⟨g :: a, g', b, by simp [e], by simpa using h3, by simpa using h4⟩

/-- The cut property: a lightest edge that crosses a cut which no edge chosen so far crosses can be chosen. -/
theorem Promising.cut {E C : List ε} {e : ε} (S : κ → Prop) (hp : Promising ends w E C) (hC : ∀ c ∈ C, ¬ Crosses ends S c)
    (he : e ∈ E) (hx : Crosses ends S e) (hl : ∀ f ∈ E, Crosses ends S f → w e ≤ w f) : Promising ends w E (e :: C) := by
  intro F hF
  obtain ⟨D, hD, hw⟩ := hp F hF
  by_cases hed : e ∈ D
  · have hq : (C ++ D).Perm (e :: C ++ D.erase e) :=
      ((List.perm_cons_erase hed).append_left C).trans (by simp)
    exact ⟨D.erase e, ⟨fun x hx => hD.sub x (hq.mem_iff.2 hx), hD.forest.perm hq, fun x y c => (hD.spans x y c).perm hq⟩,
      by rw [← weightOf_perm hq]; exact hw⟩
  classical
  let N := D.filter fun d => decide (¬ Crosses ends S d)
  let X := D.filter fun d => ! decide (¬ Crosses ends S d)
  have hDP : (N ++ X).Perm D := List.filter_append_perm _ D
  have hFP : (C ++ D).Perm (C ++ N ++ X) := by rw [List.append_assoc]; exact hDP.symm.append_left C
  have h1 : ¬ Connects ends (C ++ N) (ends e).1 (ends e).2 := by
    intro c
    refine hx (noncrossing_connects ?_ c)
    intro d hd
    rcases List.mem_append.1 hd with hd | hd
    · exact hC d hd
    · have := (List.mem_filter.1 hd).2
      simpa using this
  have h2 : Connects ends (C ++ N ++ X) (ends e).1 (ends e).2 := (hD.spans _ _ (.edge he)).perm hFP
  obtain ⟨a, g, b, hX, h3, h4⟩ := first_connecting X h1 h2
  have hgX : g ∈ X := by rw [hX]; simp
  have hgc : Crosses ends S g := by simpa using (List.mem_filter.1 hgX).2
  have hgD : g ∈ D := (List.mem_filter.1 hgX).1
  have hgE : g ∈ E := hD.sub g (by simp [hgD])
  -- the remaining edges
  let R := C ++ (N ++ (a ++ b))
  have hRP : (C ++ D).Perm (g :: R) := by
    refine hFP.trans ?_
    rw [hX]
    have : (C ++ N ++ (a ++ g :: b)).Perm (C ++ N ++ (g :: (a ++ b))) := List.perm_middle.append_left _
    refine this.trans ?_
    refine List.perm_middle.trans ?_
    simp [R]
  have hR1 : ¬ Connects ends R (ends g).1 (ends g).2 := hD.forest g R hRP
  have h5 := h4.exchange h3
  have hR2 : ¬ Connects ends R (ends e).1 (ends e).2 := by
    intro c
    apply hR1
    refine h5.sub ?_
    intro d hd
    rcases List.mem_cons.1 hd with rfl | hd
    · exact c
    · exact .edge (by simp only [R]; grind)
  have hRf : Forest ends R := by
    intro f F' hp' hc
    have : (C ++ D).Perm (f :: g :: F') := hRP.trans ((hp'.cons g).trans (List.Perm.swap f g F'))
    exact hD.forest f (g :: F') this (hc.mono (by simp +contextual))
  have hEq : e :: C ++ (N ++ (a ++ b)) = e :: R := rfl
  refine ⟨N ++ (a ++ b), ⟨?_, ?_, ?_⟩, ?_⟩
  · rw [hEq]
    intro d hd
    rcases List.mem_cons.1 hd with rfl | hd
    · exact he
    · exact hD.sub d (hRP.mem_iff.2 (by simp [hd]))
  · rw [hEq]; exact hRf.cons hR2
  · intro x y c
    rw [hEq]
    refine ((hD.spans x y c).perm hRP).sub ?_
    intro d hd
    rcases List.mem_cons.1 hd with rfl | hd
    · refine h5.mono ?_
      intro d hd
      simp only [R]; grind
    · exact .edge (by simp [hd])
  · rw [hEq]
    have h6 := hl g hgE hgc
    have h7 : weightOf w (C ++ D) = w g + weightOf w R := by rw [weightOf_perm hRP]; simp [weightOf]
    have h8 : weightOf w (e :: R) = w e + weightOf w R := by simp [weightOf]
    omega

/-- A promising forest that spans is of least weight. -/
theorem Promising.least {E C : List ε} (hp : Promising ends w E C) (hs : SpanningForest ends E C) : MinSpanningForest ends w E C := by
  refine ⟨hs, fun F hF => ?_⟩
  obtain ⟨D, hD, hw⟩ := hp F hF
  cases D with
  | nil => simpa using hw
  | cons d D =>
    exfalso
    refine hD.forest d (C ++ D) List.perm_middle ?_
    exact (hs.spans _ _ (.edge (hD.sub d (by simp)))).mono (by grind)

end Props
