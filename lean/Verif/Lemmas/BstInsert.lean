import Verif.Lemmas.Rotate
import Verif.Spec

/-!
# Searching and inserting in array-stored search trees
-/
namespace Props
open Py Model Spec
set_option linter.unusedSectionVars false
variable {κ δ : Type} [DecidableEq κ]

/-- The key stored at a position. -/
def keyOf (h : Cells κ δ) (i : Nat) : Option κ := (h i).bind (·.key)

/-- The keys at two positions are in order. -/
def KLt (lt : κ → κ → Bool) (h : Cells κ δ) (i j : Nat) : Prop :=
  ∃ a b, keyOf h i = some a ∧ keyOf h j = some b ∧ lt a b = true

/-- Every node has a key and the keys increase from left to right. -/
def Srt (lt : κ → κ → Bool) (h : Cells κ δ) (T : Shape) : Prop :=
  T.ids.Pairwise (KLt lt h) ∧ ∀ i ∈ T.ids, (keyOf h i).isSome

/-- The comparator as a relation. -/
abbrev ltRel (lt : κ → κ → Bool) : κ → κ → Prop := fun a b => lt a b = true

/-- `k` belongs into the hole. -/
def Fits (lt : κ → κ → Bool) (h : Cells κ δ) (c : Around) (k : κ) : Prop :=
  (∀ i ∈ Around.before c, ∃ a, keyOf h i = some a ∧ lt a k = true) ∧
  (∀ i ∈ Around.after c, ∃ a, keyOf h i = some a ∧ lt k a = true)

theorem Srt.left {lt : κ → κ → Bool} {h : Cells κ δ} {l r : Shape} {i : Nat} (H : Srt lt h (.node l i r)) : Srt lt h l := by
  obtain ⟨h1, h2⟩ := H
  simp only [Shape.ids, List.pairwise_append] at h1
  exact ⟨h1.1, fun j hj => h2 j (by simp [Shape.ids, hj])⟩

theorem Srt.right {lt : κ → κ → Bool} {h : Cells κ δ} {l r : Shape} {i : Nat} (H : Srt lt h (.node l i r)) : Srt lt h r := by
  obtain ⟨h1, h2⟩ := H
  simp only [Shape.ids, List.pairwise_append, List.pairwise_cons] at h1
  exact ⟨h1.2.1.2, fun j hj => h2 j (by simp [Shape.ids, hj])⟩

/-- Going left from `i` with `k` below the key of `i`. -/
theorem Fits.goLeft {lt : κ → κ → Bool} (ht : StrictTotal (ltRel lt)) {h : Cells κ δ} {c : Around} {l r : Shape} {i : Nat} {k a : κ}
    (hf : Fits lt h c k) (hs : Srt lt h (.node l i r)) (ha : keyOf h i = some a) (hlt : lt k a = true) :
    Fits lt h (.inL i r :: c) k := by
  refine ⟨hf.1, ?_⟩
  intro j hj
  simp only [Around.after, List.cons_append, List.mem_cons, List.mem_append] at hj
  rcases hj with rfl | hj | hj
  · exact ⟨a, ha, hlt⟩
  · have := hs.1
    simp only [Shape.ids, List.pairwise_append, List.pairwise_cons] at this
    obtain ⟨x, y, hx, hy, hxy⟩ := this.2.1.1 j hj
    rw [ha] at hx; cases hx
    exact ⟨y, hy, ht.trans _ _ _ hlt hxy⟩
  · exact hf.2 j hj

theorem Fits.goRight {lt : κ → κ → Bool} (ht : StrictTotal (ltRel lt)) {h : Cells κ δ} {c : Around} {l r : Shape} {i : Nat} {k a : κ}
    (hf : Fits lt h c k) (hs : Srt lt h (.node l i r)) (ha : keyOf h i = some a) (hlt : lt a k = true) :
    Fits lt h (.inR l i :: c) k := by
  refine ⟨?_, hf.2⟩
  intro j hj
  simp only [Around.before, List.mem_append, List.mem_cons, List.not_mem_nil, or_false] at hj
  rcases hj with hj | hj | rfl
  · exact hf.1 j hj
  · have := hs.1
    simp only [Shape.ids, List.pairwise_append, List.pairwise_cons] at this
    obtain ⟨x, y, hx, hy, hxy⟩ := this.2.2 j hj i (by simp)
    rw [ha] at hy; cases hy
    exact ⟨x, hx, ht.trans _ _ _ hxy hlt⟩
  · exact ⟨a, ha, hlt⟩

/-- Where the search for `k` ends: at a node with key `k`, or in a hole where `k` belongs. -/
structure Found (lt : κ → κ → Bool) (h : Cells κ δ) (k : κ) (c : Around) (S : Shape) : Prop where
  fits : Fits lt h c k
  here : S = .leaf ∨ ∃ l i r, S = .node l i r ∧ keyOf h i = some k

theorem search_loop {lt : κ → κ → Bool} (ht : StrictTotal (ltRel lt)) {up : Bool} {t : BTree κ δ} {k : κ} : ∀ (S : Shape) (c : Around),
    Linked up t.at (Around.up c) S → Srt lt t.at S → Fits lt t.at c k →
    ∃ c' S', Around.plug c' S' = Around.plug c S ∧ Found lt t.at k c' S' ∧
      ∀ fuel > S.depth + 1, whileLoop fuel bstSearchCond (bstSearchBody lt t k) ⟨S.root, Around.up c, false⟩ =
        .ok ⟨S'.root, Around.up c', S'.root.isSome⟩ := by
  intro S
  induction S with
  | leaf =>
    intro c _ _ hf
    refine ⟨c, .leaf, rfl, ⟨hf, .inl rfl⟩, ?_⟩
    intro fuel hfu
    obtain ⟨f, rfl⟩ : ∃ f, fuel = f + 1 := ⟨fuel - 1, by omega⟩
    simp [whileLoop, bstSearchCond, Shape.root]
  | node l i r ih1 ih2 =>
    intro c hl hs hf
    obtain ⟨⟨n, en, n1, n2, _⟩, hl1, hl2⟩ := hl
    obtain ⟨a, ha⟩ := Option.isSome_iff_exists.mp (hs.2 i (by simp [Shape.ids]))
    have hna : n.key = some a := by simpa [keyOf, en] using ha
    by_cases hk : a = k
    · subst hk
      refine ⟨c, .node l i r, rfl, ⟨hf, .inr ⟨l, i, r, rfl, ha⟩⟩, ?_⟩
      intro fuel hfu
      obtain ⟨f, rfl⟩ : ∃ f, fuel = f + 2 := ⟨fuel - 2, by omega⟩
      simp [whileLoop, bstSearchCond, bstSearchBody, Shape.root, asIdx, getNode_ok en, hna]
    · have hstep : bstSearchBody lt t k ⟨some i, Around.up c, false⟩ =
          .ok ⟨if lt k a then l.root else r.root, some i, false⟩ := by
        simp [bstSearchBody, asIdx, getNode_ok en, hna, hk, cmpKey, n1, n2]
      by_cases hlt : lt k a = true
      · obtain ⟨c', S', e, hF, hrun⟩ := ih1 (.inL i r :: c) hl1 hs.left (hf.goLeft ht hs ha hlt)
        refine ⟨c', S', e, hF, ?_⟩
        intro fuel hfu
        obtain ⟨f, rfl⟩ : ∃ f, fuel = f + 1 := ⟨fuel - 1, by omega⟩
        have := hrun f (by simp only [Shape.depth] at hfu; omega)
        simp only [whileLoop, bstSearchCond, Shape.root, Option.isSome_some, Bool.not_false, Bool.and_self, ok_bind, if_true, hstep, hlt]
        exact this
      · have hgt : lt a k = true := by
          rcases ht.tri a k with h | h | h
          · exact h
          · exact absurd h hk
          · exact absurd h hlt
        obtain ⟨c', S', e, hF, hrun⟩ := ih2 (.inR l i :: c) hl2 hs.right (hf.goRight ht hs ha hgt)
        refine ⟨c', S', e, hF, ?_⟩
        intro fuel hfu
        obtain ⟨f, rfl⟩ : ∃ f, fuel = f + 1 := ⟨fuel - 1, by omega⟩
        have := hrun f (by simp only [Shape.depth] at hfu; omega)
        simp only [whileLoop, bstSearchCond, Shape.root, Option.isSome_some, Bool.not_false, Bool.and_self, ok_bind, if_true, hstep, if_neg hlt]
        exact this

theorem root_key {lt : κ → κ → Bool} {up : Bool} {t : BTree κ δ} {T : Shape} (h : TreeAt up t T) (hs : Srt lt t.at T) :
    ∃ n a, t.at t.rootIdx = some n ∧ n.key = some a := by
  have := hs.2 t.rootIdx (Shape.root_mem h.root)
  obtain ⟨a, ha⟩ := Option.isSome_iff_exists.mp this
  cases e : t.at t.rootIdx with
  | none => simp [keyOf, e] at ha
  | some n => exact ⟨n, a, rfl, by simpa [keyOf, e] using ha⟩

theorem searchP_spec {lt : κ → κ → Bool} (ht : StrictTotal (ltRel lt)) {up : Bool} {t : BTree κ δ} {T : Shape} (h : TreeAt up t T)
    (hs : Srt lt t.at T) (k : κ) :
    ∃ c S, Around.plug c S = T ∧ Found lt t.at k c S ∧
      ∀ fuel > T.depth + 1, bstSearchP lt fuel t k = .ok (some (S.root, Around.up c)) := by
  obtain ⟨c, S, e, hF, hrun⟩ := search_loop ht (k := k) T [] h.linked hs ⟨by simp [Around.before], by simp [Around.after]⟩
  refine ⟨c, S, e, hF, ?_⟩
  intro fuel hfu
  obtain ⟨n, a, en, ea⟩ := root_key h hs
  have := hrun fuel hfu
  rw [h.root] at this
  have this2 : whileLoop fuel bstSearchCond (bstSearchBody lt t k) ⟨some t.rootIdx, none, false⟩ =
    .ok ⟨S.root, Around.up c, S.root.isSome⟩ := this
  simp [bstSearchP, getNode_ok en, ea, this2]

theorem search_spec {lt : κ → κ → Bool} (ht : StrictTotal (ltRel lt)) {up : Bool} {t : BTree κ δ} {T : Shape} (h : TreeAt up t T)
    (hs : Srt lt t.at T) (k : κ) :
    ∃ c S, Around.plug c S = T ∧ Found lt t.at k c S ∧
      ∀ fuel > T.depth + 1, bstSearch lt fuel t k = .ok S.root := by
  obtain ⟨c, S, e, hF, hrun⟩ := searchP_spec ht h hs k
  exact ⟨c, S, e, hF, fun fuel hfu => by simp [bstSearch, hrun fuel hfu]⟩

/-- If the search ends in a hole, the key is nowhere in the tree. -/
theorem Found.absent {lt : κ → κ → Bool} (ht : StrictTotal (ltRel lt)) {h : Cells κ δ} {k : κ} {c : Around}
    (hF : Found lt h k c .leaf) : ∀ i ∈ (Around.plug c .leaf).ids, keyOf h i ≠ some k := by
  intro i hi e
  rw [Around.ids_plug] at hi
  simp only [Shape.ids, List.append_nil, List.mem_append] at hi
  rcases hi with hi | hi
  · obtain ⟨a, ha, hlt⟩ := hF.fits.1 i hi
    rw [e] at ha; cases ha
    exact ht.irrefl _ hlt
  · obtain ⟨a, ha, hlt⟩ := hF.fits.2 i hi
    rw [e] at ha; cases ha
    exact ht.irrefl _ hlt

/-! ## Appending a node -/

/-- The capacity of the array after room has been made for one more node. -/
def grown (t : BTree κ δ) : Nat := if t.top = t.arr.length then 2 * t.arr.length + 1 else t.arr.length

theorem append_spec {t : BTree κ δ} (n : BNode κ δ) (h1 : t.top ≤ t.arr.length) (h2 : grown t ≤ 4 * (t.num + 1)) :
    ∃ t', atAppend t n = .ok t' ∧ t'.at = (fun j => if j = t.top then some n else t.at j) ∧ t'.top = t.top + 1 ∧
      t'.num = t.num + 1 ∧ t'.size = t.size ∧ t'.rootIdx = t.rootIdx ∧ t'.orderStat = t.orderStat ∧
      t'.arr.length = grown t := by
  unfold grown at h2 ⊢
  by_cases hg : t.top = t.arr.length
  · rw [if_pos hg] at h2 ⊢
    refine ⟨{ t with arr := t.arr ++ some n :: (List.replicate (2 * t.arr.length + 1 - (t.arr.length + 1)) none),
                        top := t.top + 1, num := t.num + 1 }, ?_, ?_, rfl, rfl, rfl, rfl, rfl, ?_⟩
    · simp only [atAppend, if_pos hg, atModify]
      rw [if_neg]
      · rfl
      · simp only [List.length_append, List.length_cons, List.length_replicate]; omega
    · funext j
      simp only [BTree.at]
      by_cases hj : j = t.top
      · subst hj
        rw [hg, List.getElem?_append_right (Nat.le_refl _)]; simp
      · rw [if_neg hj]
        by_cases hl : j < t.arr.length
        · rw [List.getElem?_append_left hl]
        · rw [List.getElem?_append_right (by omega), List.getElem?_eq_none (l := t.arr) (by omega)]
          obtain ⟨m, hm⟩ : ∃ m, j - t.arr.length = m + 1 := ⟨j - t.arr.length - 1, by omega⟩
          rw [hm, List.getElem?_cons_succ, List.getElem?_replicate]
          split <;> rfl
    · simp only [List.length_append, List.length_cons, List.length_replicate]; omega
  · rw [if_neg hg] at h2 ⊢
    refine ⟨{ t with arr := t.arr.set t.top (some n), top := t.top + 1, num := t.num + 1 }, ?_, ?_, rfl, rfl, rfl, rfl, rfl, ?_⟩
    · simp only [atAppend, if_neg hg, atModify]
      rw [if_neg]
      · rfl
      · simp only [List.length_set]; omega
    · funext j
      simp only [BTree.at, List.getElem?_set]
      by_cases hj : t.top = j
      · subst hj
        have : t.top < t.arr.length := by omega
        simp [this]
      · rw [if_neg hj, if_neg (fun e => hj e.symm)]
    · simp

/-- Set the link of the step `f` to `x`. -/
def Frame.link (f : Frame) (x : Nat) (n : BNode κ δ) : BNode κ δ :=
  match f with
  | .inL _ _ => { n with left := some x }
  | .inR _ _ => { n with right := some x }

theorem Frame.link_turned (f : Frame) (x : Nat) (n : BNode κ δ) : f.Turned n (f.link x n) (some x) := by
  cases f <;> exact ⟨rfl, rfl⟩

theorem Frame.link_parent (f : Frame) (x : Nat) (n : BNode κ δ) : (f.link x n).parent = n.parent := by
  cases f <;> rfl

theorem Frame.link_strip (f : Frame) (x : Nat) (n : BNode κ δ) : (f.link x n).strip = n.strip := by
  cases f <;> rfl

/-- The cells after hanging a new node `n` at position `x` below the step `f`. -/
def hung (h : Cells κ δ) (f : Frame) (x : Nat) (n : BNode κ δ) : Cells κ δ :=
  mapAt (fun j => if j = x then some n else h j) f.idx (f.link x)

/-- What the array looks like after an insertion. -/
structure Hung (t t' : BTree κ δ) (f : Frame) (n : BNode κ δ) : Prop where
  cells : t'.at = hung t.at f t.top n
  top : t'.top = t.top + 1
  num : t'.num = t.num + 1
  size : t'.size = t.size + 1
  rootIdx : t'.rootIdx = t.rootIdx
  orderStat : t'.orderStat = t.orderStat
  len : t'.arr.length = grown t

theorem insertHere_spec {t : BTree κ δ} {k : κ} {d : Option δ} {f : Frame} {prev : Option Nat} (h1 : t.top ≤ t.arr.length)
    (h2 : grown t ≤ 4 * (t.num + 1)) (hs : t.size = t.top) (hf : (t.at f.idx).isSome) (hft : f.idx ≠ t.top) :
    ∃ t', insertHere t f.idx prev k d f.link = .ok t' ∧ Hung t t' f { key := some k, data := d, parent := prev } := by
  obtain ⟨t1, e1, a1, b1, b2, b3, b4, b5, b6⟩ := append_spec { key := some k, data := d, parent := prev } h1 h2
  obtain ⟨t2, e2, a2, r2, q2⟩ := modNode_spec (t := t1) (i := f.idx) (f.link t1.size) (by rw [a1]; simpa [hft] using hf)
  refine ⟨{ t2 with size := t2.size + 1 }, by simp [insertHere, e1, e2], ?_, ?_, ?_, ?_, ?_, ?_, ?_⟩
  · show t2.at = _
    rw [a2, a1, b3, hs]; rfl
  · exact r2.top.trans b1
  · exact r2.num.trans b2
  · show t2.size + 1 = _; rw [r2.size, b3]
  · exact q2.trans b4
  · exact r2.orderStat.trans b5
  · exact r2.len.trans b6

theorem insert_loop {lt : κ → κ → Bool} (ht : StrictTotal (ltRel lt)) {up : Bool} {t : BTree κ δ} {k : κ} {d : Option δ}
    (h1 : t.top ≤ t.arr.length) (h2 : grown t ≤ 4 * (t.num + 1)) (hsz : t.size = t.top) (hlow : ∀ i, (t.at i).isSome → i < t.top) :
    ∀ (S : Shape) (c : Around), S ≠ .leaf →
    Linked up t.at (Around.up c) S → Srt lt t.at S → Fits lt t.at c k → (∀ i ∈ S.ids, keyOf t.at i ≠ some k) →
    ∃ f c' t', Around.plug (f :: c') .leaf = Around.plug c S ∧ Fits lt t.at (f :: c') k ∧
      Hung t t' f { key := some k, data := d, parent := some f.idx } ∧
      ∀ fuel > S.depth, whileLoop fuel insertCond (insertBody lt k d) ⟨t, S.root, S.root, true⟩ =
        .ok ⟨t', some t.top, some t.top, false⟩ := by
  intro S
  induction S with
  | leaf => intro c h; exact absurd rfl h
  | node l i r ih1 ih2 =>
    intro c _ hl hs hf hab
    obtain ⟨⟨n, en, n1, n2, _⟩, hl1, hl2⟩ := hl
    obtain ⟨a, ha⟩ := Option.isSome_iff_exists.mp (hs.2 i (by simp [Shape.ids]))
    have hna : n.key = some a := by simpa [keyOf, en] using ha
    have hk : a ≠ k := by rintro rfl; exact hab i (by simp [Shape.ids]) ha
    have hsome : (t.at i).isSome := by rw [en]; rfl
    have hit : i ≠ t.top := Nat.ne_of_lt (hlow i hsome)
    by_cases hlt : lt k a = true
    · by_cases hleaf : l = .leaf
      · subst hleaf
        obtain ⟨t', e', hH⟩ := insertHere_spec (k := k) (d := d) (f := .inL i r) (prev := some i) h1 h2 hsz hsome hit
        refine ⟨.inL i r, c, t', rfl, hf.goLeft ht hs ha hlt, hH, ?_⟩
        intro fuel hfu
        obtain ⟨f, rfl⟩ : ∃ f, fuel = f + 2 := ⟨fuel - 2, by simp only [Shape.depth] at hfu; omega⟩
        have et' : t'.at i = some { n with left := some t.top } := by
          rw [hH.cells]; simp [hung, mapAt, Frame.idx, Frame.link, hit, en]
        have e'' : insertHere t i (some i) k d (fun i n => { n with left := some i }) = .ok t' := e'
        simp [whileLoop, insertCond, insertBody, Shape.root, asIdx, getNode_ok en, hna, cmpKey, hlt, n1, e'', getNode_ok et']
      · have hln : n.left ≠ none := by rw [n1]; intro e; exact hleaf (Shape.root_none e)
        obtain ⟨f, c', t', e, hF, hH, hrun⟩ := ih1 (.inL i r :: c) hleaf hl1 hs.left (hf.goLeft ht hs ha hlt)
          (fun j hj => hab j (by simp [Shape.ids, hj]))
        refine ⟨f, c', t', e, hF, hH, ?_⟩
        intro fuel hfu
        obtain ⟨f, rfl⟩ : ∃ f, fuel = f + 1 := ⟨fuel - 1, by omega⟩
        have := hrun f (by simp only [Shape.depth] at hfu; omega)
        rw [← this, ← n1]
        simp [whileLoop, insertCond, insertBody, Shape.root, asIdx, getNode_ok en, hna, cmpKey, hlt, hln]
    · have hgt : lt a k = true := by
        rcases ht.tri a k with h | h | h
        · exact h
        · exact absurd h hk
        · exact absurd h hlt
      by_cases hleaf : r = .leaf
      · subst hleaf
        obtain ⟨t', e', hH⟩ := insertHere_spec (k := k) (d := d) (f := .inR l i) (prev := some i) h1 h2 hsz hsome hit
        refine ⟨.inR l i, c, t', rfl, hf.goRight ht hs ha hgt, hH, ?_⟩
        intro fuel hfu
        obtain ⟨f, rfl⟩ : ∃ f, fuel = f + 2 := ⟨fuel - 2, by simp only [Shape.depth] at hfu; omega⟩
        have et' : t'.at i = some { n with right := some t.top } := by
          rw [hH.cells]; simp [hung, mapAt, Frame.idx, Frame.link, hit, en]
        have e'' : insertHere t i (some i) k d (fun i n => { n with right := some i }) = .ok t' := e'
        simp [whileLoop, insertCond, insertBody, Shape.root, asIdx, getNode_ok en, hna, cmpKey, hlt, n2, e'', getNode_ok et']
      · have hln : n.right ≠ none := by rw [n2]; intro e; exact hleaf (Shape.root_none e)
        obtain ⟨f, c', t', e, hF, hH, hrun⟩ := ih2 (.inR l i :: c) hleaf hl2 hs.right (hf.goRight ht hs ha hgt)
          (fun j hj => hab j (by simp [Shape.ids, hj]))
        refine ⟨f, c', t', e, hF, hH, ?_⟩
        intro fuel hfu
        obtain ⟨f, rfl⟩ : ∃ f, fuel = f + 1 := ⟨fuel - 1, by omega⟩
        have := hrun f (by simp only [Shape.depth] at hfu; omega)
        rw [← this, ← n2]
        simp [whileLoop, insertCond, insertBody, Shape.root, asIdx, getNode_ok en, hna, cmpKey, hlt, hln]

/-- The new node becomes a leaf of the tree. -/
theorem hung_tree {up : Bool} {t t' : BTree κ δ} {f : Frame} {c : Around} {k : κ} {d : Option δ}
    (h : TreeAt up t (Around.plug (f :: c) .leaf)) (hlow : ∀ i ∈ (Around.plug (f :: c) .leaf).ids, i < t.top)
    (hH : Hung t t' f { key := some k, data := d, parent := some f.idx }) :
    TreeAt up t' (Around.plug (f :: c) (.node .leaf t.top .leaf)) := by
  have hft : f.idx ≠ t.top := by
    have : f.idx ∈ (Around.plug (f :: c) .leaf).ids := by
      rw [Around.ids_plug]
      have := Around.up_mem (c := f :: c) rfl
      simpa [Shape.ids] using this
    exact Nat.ne_of_lt (hlow _ this)
  refine ⟨?_, ?_, ?_⟩
  · rw [hH.rootIdx, ← h.root]; exact Around.root_plug_cons f c _ _
  · have hl := (linked_plug up _ _ _).mp h.linked
    rw [linked_plug]
    refine ⟨around_redirect (by have := h.nodup; exact this) ?_ ?_ hl.1,
      ⟨{ key := some k, data := d, parent := some f.idx }, ?_, rfl, rfl, fun _ => rfl⟩, trivial, trivial⟩
    · intro i hi hne
      have : i < t.top := hlow i (by rw [Around.ids_plug]; simpa [Shape.ids] using hi)
      simp only [linksOf, hH.cells, hung, mapAt]
      rw [if_neg (fun e => hne e.symm), if_neg (Nat.ne_of_lt this)]
    · intro n hn
      refine ⟨f.link t.top n, ?_, Frame.link_parent f _ n, Frame.link_turned f _ n⟩
      rw [hH.cells]; simp [hung, mapAt, hft, hn]
    · rw [hH.cells]; simp [hung, mapAt, Ne.symm hft]
  · have := h.nodup
    rw [Around.ids_plug] at this hlow ⊢
    simp only [Shape.ids, List.append_nil, List.nil_append] at this hlow ⊢
    have h2 : t.top ∉ Around.before (f :: c) ++ Around.after (f :: c) := fun hm => Nat.lt_irrefl _ (hlow _ hm)
    grind

/-! ## Subtree sizes -/

/-- Every node stores the number of nodes of its subtree. -/
def Sized (h : Cells κ δ) : Shape → Prop
  | .leaf => True
  | .node l i r => (∃ n, h i = some n ∧ n.size = l.ids.length + r.ids.length + 1) ∧ Sized h l ∧ Sized h r

/-- The subtrees beside the way to the hole store the right sizes. -/
def SizedAround (h : Cells κ δ) : Around → Prop
  | [] => True
  | f :: c => Sized h f.other ∧ SizedAround h c

/-- A node without its size. -/
def _root_.Model.BNode.unsized (n : BNode κ δ) : BNode κ δ := { n with size := 0 }

/-- The cells agree up to sizes. -/
def SameButSize (h h' : Cells κ δ) : Prop := ∀ i, (h' i).map BNode.unsized = (h i).map BNode.unsized

theorem SameButSize.refl (h : Cells κ δ) : SameButSize h h := fun _ => rfl

theorem SameButSize.trans {a b c : Cells κ δ} (h : SameButSize a b) (h' : SameButSize b c) : SameButSize a c :=
  fun i => (h' i).trans (h i)

theorem sameButSize_mapAt {h : Cells κ δ} {i s : Nat} : SameButSize h (mapAt h i (fun n => { n with size := s })) := by
  intro j
  unfold mapAt
  by_cases hj : j = i
  · simp only [hj, if_true, Option.map_map]; congr 1
  · rw [if_neg hj]

theorem SameButSize.links {h h' : Cells κ δ} (H : SameButSize h h') (i : Nat) : linksOf h' i = linksOf h i := by
  have := H i
  simp only [linksOf]
  cases e : h' i <;> cases e' : h i <;> simp_all [BNode.unsized, BNode.links]

theorem SameButSize.key {h h' : Cells κ δ} (H : SameButSize h h') (i : Nat) : keyOf h' i = keyOf h i := by
  have := H i
  simp only [keyOf]
  cases e : h' i <;> cases e' : h i <;> simp_all [BNode.unsized]

theorem sized_congr {h h' : Cells κ δ} : ∀ {T : Shape}, (∀ i ∈ T.ids, (h' i).map BNode.size = (h i).map BNode.size) →
    Sized h T → Sized h' T := by
  intro T
  induction T with
  | leaf => intros; trivial
  | node l i r ih1 ih2 =>
    intro e H
    obtain ⟨⟨n, en, hn⟩, H1, H2⟩ := H
    refine ⟨?_, ih1 (fun j hj => e j (by simp [Shape.ids, hj])) H1, ih2 (fun j hj => e j (by simp [Shape.ids, hj])) H2⟩
    have := e i (by simp [Shape.ids])
    rw [en] at this
    simp only [Option.map_some, Option.map_eq_some_iff] at this
    obtain ⟨m, em, hm⟩ := this
    exact ⟨m, em, by rw [hm, hn]⟩

theorem sizedAround_congr {h h' : Cells κ δ} : ∀ {c : Around},
    (∀ i ∈ Around.before c ++ Around.after c, (h' i).map BNode.size = (h i).map BNode.size) → SizedAround h c → SizedAround h' c := by
  intro c
  induction c with
  | nil => intros; trivial
  | cons f c ih =>
    intro e H
    cases f with
    | inL i r =>
      refine ⟨sized_congr (fun j hj => e j (by simp only [Frame.other] at hj; simp [Around.after, hj])) H.1, ih (fun j hj => e j ?_) H.2⟩
      simp only [Around.before, Around.after, List.mem_append, List.cons_append, List.mem_cons] at hj ⊢
      rcases hj with h | h <;> simp [h]
    | inR l i =>
      refine ⟨sized_congr (fun j hj => e j (by simp only [Frame.other] at hj; simp [Around.before, hj])) H.1, ih (fun j hj => e j ?_) H.2⟩
      simp only [Around.before, Around.after, List.mem_append, List.mem_cons] at hj ⊢
      rcases hj with h | h <;> simp [h]

theorem sizedAround_of_plug {h : Cells κ δ} : ∀ {c : Around} {T : Shape}, Sized h (Around.plug c T) → SizedAround h c ∧ Sized h T := by
  intro c
  induction c with
  | nil => intro T H; exact ⟨trivial, H⟩
  | cons f c ih =>
    intro T H
    cases f with
    | inL i r => obtain ⟨h1, h2, h3, h4⟩ := ih (T := .node T i r) H; exact ⟨⟨h4, h1⟩, h3⟩
    | inR l i => obtain ⟨h1, h2, h3, h4⟩ := ih (T := .node l i T) H; exact ⟨⟨h3, h1⟩, h4⟩

/-- The stored size of a possibly missing child. -/
theorem sized_root {h : Cells κ δ} {T : Shape} (H : Sized h T) :
    ∀ i, T.root = some i → ∃ n, h i = some n ∧ n.size = T.ids.length := by
  intro i hi
  cases T with
  | leaf => cases hi
  | node l j r =>
    simp only [Shape.root, Option.some.injEq] at hi; subst hi
    obtain ⟨n, en, hn⟩ := H.1
    exact ⟨n, en, by rw [hn]; simp [Shape.ids]; omega⟩

theorem leftSize_ok {t : BTree κ δ} {n : BNode κ δ} {L : Shape} (H : Sized t.at L) (e : n.left = L.root) :
    leftSize t n = .ok L.ids.length := by
  unfold leftSize
  rw [e]
  cases hL : L.root with
  | none => rw [Shape.root_none hL]; rfl
  | some i => obtain ⟨m, em, hm⟩ := sized_root H i hL; simp [getNode_ok em, hm]

theorem rightSize_ok {t : BTree κ δ} {n : BNode κ δ} {R : Shape} (H : Sized t.at R) (e : n.right = R.root) :
    rightSize t n = .ok R.ids.length := by
  unfold rightSize
  rw [e]
  cases hL : R.root with
  | none => rw [Shape.root_none hL]; rfl
  | some i => obtain ⟨m, em, hm⟩ := sized_root H i hL; simp [getNode_ok em, hm]

theorem resize_spec {t : BTree κ δ} {p : Option Nat} {L R : Shape} {i : Nat} (hl : LinksAt true t.at p L.root i R.root)
    (hL : Sized t.at L) (hR : Sized t.at R) :
    ∃ t', resize t i = .ok t' ∧ t'.at = mapAt t.at i (fun n => { n with size := L.ids.length + R.ids.length + 1 }) ∧
      SameRest t t' ∧ t'.rootIdx = t.rootIdx := by
  obtain ⟨n, en, n1, n2, _⟩ := hl
  obtain ⟨t', e, a, r, q⟩ := modNode_spec (t := t) (i := i) (fun n => { n with size := L.ids.length + R.ids.length + 1 }) (by rw [en]; rfl)
  exact ⟨t', by simp [resize, getNode_ok en, leftSize_ok hL n1, rightSize_ok hR n2, e], a, r, q⟩

theorem updateSize_loop : ∀ (c : Around) (t : BTree κ δ) (S : Shape),
    LinkedAround true t.at c S.root → Sized t.at S → SizedAround t.at c → (Around.plug c S).ids.Nodup →
    ∃ t', SameButSize t.at t'.at ∧ SameRest t t' ∧ t'.rootIdx = t.rootIdx ∧ Sized t'.at (Around.plug c S) ∧
      ∀ fuel > c.length, whileLoop fuel walking updateSizeBody (t, Around.up c) = .ok (t', none) := by
  intro c
  induction c with
  | nil =>
    intro t S _ hS _ _
    refine ⟨t, SameButSize.refl _, SameRest.refl t, rfl, hS, ?_⟩
    intro fuel hfu
    obtain ⟨f, rfl⟩ : ∃ f, fuel = f + 1 := ⟨fuel - 1, by omega⟩
    simp [whileLoop, walking, Around.up]
  | cons f c ih =>
    intro t S hA hS hc nd
    have step : ∀ (L R : Shape) (i : Nat), LinksAt true t.at (Around.up c) L.root i R.root → Sized t.at L → Sized t.at R →
        LinkedAround true t.at c (some i) → SizedAround t.at c → (Around.plug c (.node L i R)).ids.Nodup →
        ∃ t', SameButSize t.at t'.at ∧ SameRest t t' ∧ t'.rootIdx = t.rootIdx ∧ Sized t'.at (Around.plug c (.node L i R)) ∧
          ∀ fuel > c.length + 1, whileLoop fuel walking updateSizeBody (t, some i) = .ok (t', none) := by
      intro L R i hli hL hR hA hc nd
      obtain ⟨t1, e1, a1, r1, q1⟩ := resize_spec hli hL hR
      have sb : SameButSize t.at t1.at := by rw [a1]; exact sameButSize_mapAt
      have hsz : ∀ j, j ≠ i → (t1.at j).map BNode.size = (t.at j).map BNode.size := by
        intro j hj; rw [a1]; simp [mapAt, hj]
      have nd' := nd
      rw [Around.ids_plug] at nd'
      simp only [Shape.ids] at nd'
      obtain ⟨n, en, n1, n2, n3⟩ := hli
      have en1 : t1.at i = some { n with size := L.ids.length + R.ids.length + 1 } := by rw [a1]; simp [mapAt, en]
      obtain ⟨t', s2, r2, q2, z2, run2⟩ := ih t1 (.node L i R) (around_congr (fun j _ => sb.links j) hA)
        ⟨⟨_, en1, rfl⟩, sized_congr (fun j hj => hsz j (by grind)) hL, sized_congr (fun j hj => hsz j (by grind)) hR⟩
        (sizedAround_congr (fun j hj => hsz j (by grind)) hc) nd
      refine ⟨t', sb.trans s2, r1.trans r2, q2.trans q1, z2, ?_⟩
      intro fuel hfu
      obtain ⟨f, rfl⟩ : ∃ f, fuel = f + 1 := ⟨fuel - 1, by omega⟩
      have := run2 f (by omega)
      simp only [whileLoop, walking, Option.isSome_some, ok_bind, if_true, updateSizeBody, asIdx, e1, getNode_ok en1, n3]
      exact this
    cases f with
    | inL i r => exact step S r i hA.1 hS hc.1 hA.2.2 hc.2 nd
    | inR l i => exact step l S i hA.1 hc.1 hS hA.2.2 hc.2 nd

/-! ## The whole insertion -/

theorem sizeOf_child {t : BTree κ δ} {o : Option Nat} (h : ∀ i, o = some i → (t.at i).isSome) :
    ∃ s, (match o with | none => (.ok 0 : PyM Nat) | some i => do { let m ← getNode t i; .ok m.size }) = .ok s := by
  cases o with
  | none => exact ⟨0, rfl⟩
  | some i =>
    obtain ⟨n, en⟩ := Option.isSome_iff_exists.mp (h i rfl)
    exact ⟨n.size, by simp [getNode_ok en]⟩

theorem updateSize_runs : ∀ (c : Around) (t : BTree κ δ) (S : Shape), LinkedAround true t.at c S.root → Linked true t.at (Around.up c) S →
    ∃ t', SameButSize t.at t'.at ∧ SameRest t t' ∧ t'.rootIdx = t.rootIdx ∧
      ∀ fuel > c.length, whileLoop fuel walking updateSizeBody (t, Around.up c) = .ok (t', none) := by
  intro c
  induction c with
  | nil =>
    intro t S _ _
    refine ⟨t, SameButSize.refl _, SameRest.refl t, rfl, ?_⟩
    intro fuel hfu
    obtain ⟨f, rfl⟩ : ∃ f, fuel = f + 1 := ⟨fuel - 1, by omega⟩
    simp [whileLoop, walking, Around.up]
  | cons f c ih =>
    intro t S hA hS
    have step : ∀ (L R : Shape) (i : Nat), LinksAt true t.at (Around.up c) L.root i R.root → Linked true t.at (some i) L →
        Linked true t.at (some i) R → LinkedAround true t.at c (some i) →
        ∃ t', SameButSize t.at t'.at ∧ SameRest t t' ∧ t'.rootIdx = t.rootIdx ∧
          ∀ fuel > c.length + 1, whileLoop fuel walking updateSizeBody (t, some i) = .ok (t', none) := by
      intro L R i hli hL hR hA
      have hli' := hli
      obtain ⟨n, en, n1, n2, n3⟩ := hli'
      obtain ⟨a, ea⟩ : ∃ s, leftSize t n = .ok s := by
        unfold leftSize; rw [n1]
        exact sizeOf_child (fun j hj => linked_isSome hL j (Shape.root_mem hj))
      obtain ⟨b, eb⟩ : ∃ s, rightSize t n = .ok s := by
        unfold rightSize; rw [n2]
        exact sizeOf_child (fun j hj => linked_isSome hR j (Shape.root_mem hj))
      obtain ⟨t1, e1, a1, r1, q1⟩ := modNode_spec (t := t) (i := i) (fun n => { n with size := a + b + 1 }) (by rw [en]; rfl)
      have e1' : resize t i = .ok t1 := by simp [resize, getNode_ok en, ea, eb, e1]
      have sb : SameButSize t.at t1.at := by rw [a1]; exact sameButSize_mapAt
      have en1 : t1.at i = some { n with size := a + b + 1 } := by rw [a1]; simp [mapAt, en]
      obtain ⟨t', s2, r2, q2, run2⟩ := ih t1 (.node L i R) (around_congr (fun j _ => sb.links j) hA)
        ⟨linksAt_congr (sb.links i) hli, linked_congr (fun j _ => sb.links j) hL, linked_congr (fun j _ => sb.links j) hR⟩
      refine ⟨t', sb.trans s2, r1.trans r2, q2.trans q1, ?_⟩
      intro fuel hfu
      obtain ⟨f, rfl⟩ : ∃ f, fuel = f + 1 := ⟨fuel - 1, by omega⟩
      have := run2 f (by omega)
      simp only [whileLoop, walking, Option.isSome_some, ok_bind, if_true, updateSizeBody, asIdx, e1', getNode_ok en1, n3]
      exact this
    cases f with
    | inL i r => exact step S r i hA.1 hS hA.2.1 hA.2.2
    | inR l i => exact step l S i hA.1 hA.2.1 hS hA.2.2

/-- The array holds the search tree `T`; only insertions have happened, so that the array is filled without gaps. -/
structure BstOk (lt : κ → κ → Bool) (t : BTree κ δ) (T : Shape) : Prop where
  tree : TreeAt true t T
  srt : Srt lt t.at T
  low : ∀ i, (t.at i).isSome → i < t.top
  size_top : t.size = t.top
  num_top : t.num = t.top
  count : T.ids.length = t.top
  cap : t.top ≤ t.arr.length
  dense : t.arr.length ≤ 4 * t.top

theorem BstOk.grown_le {lt : κ → κ → Bool} {t : BTree κ δ} {T : Shape} (h : BstOk lt t T) : grown t ≤ 4 * (t.num + 1) := by
  have := h.num_top; have := h.cap; have := h.dense
  unfold grown
  split <;> omega

/-- A node without links and size. -/
def _root_.Model.BNode.core (n : BNode κ δ) : BNode κ δ := { n with left := none, right := none, parent := none, size := 0 }

theorem core_of_strip {a b : Option (BNode κ δ)} (h : a.map BNode.strip = b.map BNode.strip) : a.map BNode.core = b.map BNode.core := by
  cases a <;> cases b <;> simp_all [BNode.strip, BNode.core]

theorem core_of_unsized {a b : Option (BNode κ δ)} (h : a.map BNode.unsized = b.map BNode.unsized) :
    a.map BNode.core = b.map BNode.core := by
  cases a <;> cases b <;> simp_all [BNode.unsized, BNode.core]

theorem keyOf_of_core {h h' : Cells κ δ} {i : Nat} (e : (h' i).map BNode.core = (h i).map BNode.core) : keyOf h' i = keyOf h i := by
  unfold keyOf
  cases e1 : h' i <;> cases e2 : h i <;> simp_all [BNode.core]

theorem srt_congr {lt : κ → κ → Bool} {h h' : Cells κ δ} {T : Shape} (e : ∀ i ∈ T.ids, keyOf h' i = keyOf h i)
    (H : Srt lt h T) : Srt lt h' T := by
  refine ⟨H.1.imp_of_mem ?_, fun i hi => by rw [e i hi]; exact H.2 i hi⟩
  rintro i j hi hj ⟨a, b, ha, hb, hab⟩
  exact ⟨a, b, by rw [e i hi, ha], by rw [e j hj, hb], hab⟩

/-- The order only depends on the order of the positions. -/
theorem srt_of_ids {lt : κ → κ → Bool} {h : Cells κ δ} {T T' : Shape} (e : T'.ids = T.ids) (H : Srt lt h T) : Srt lt h T' := by
  unfold Srt at *; rw [e]; exact H

/-- The key belongs into the hole: the tree with the new node is in order. -/
theorem srt_plug_new {lt : κ → κ → Bool} {h : Cells κ δ} {c : Around} {k : κ} {x : Nat} (H : Srt lt h (Around.plug c .leaf))
    (hf : Fits lt h c k) (hx : keyOf h x = some k) : Srt lt h (Around.plug c (.node .leaf x .leaf)) := by
  unfold Srt at *
  rw [Around.ids_plug] at H ⊢
  simp only [Shape.ids, List.append_nil, List.nil_append] at H ⊢
  obtain ⟨H1, H2⟩ := H
  rw [List.pairwise_append] at H1
  refine ⟨?_, ?_⟩
  · rw [List.append_assoc, List.pairwise_append]
    refine ⟨H1.1, ?_, ?_⟩
    · rw [List.cons_append, List.nil_append, List.pairwise_cons]
      refine ⟨?_, H1.2.1⟩
      intro j hj
      obtain ⟨a, ha, hlt⟩ := hf.2 j hj
      exact ⟨k, a, hx, ha, hlt⟩
    · intro i hi j hj
      simp only [List.cons_append, List.nil_append, List.mem_cons] at hj
      rcases hj with rfl | hj
      · obtain ⟨a, ha, hlt⟩ := hf.1 i hi
        exact ⟨a, k, ha, hx, hlt⟩
      · exact H1.2.2 i hi j hj
  · intro i hi
    simp only [List.mem_append, List.mem_cons, List.not_mem_nil, or_false] at hi
    rcases hi with (hi | rfl) | hi
    · exact H2 i (by simp [hi])
    · rw [hx]; rfl
    · exact H2 i (by simp [hi])

/-- What `insert` does when the key is present: it replaces the data. -/
structure Replaced (t t' : BTree κ δ) (i : Nat) (d : Option δ) : Prop where
  cells : t'.at = mapAt t.at i (fun n => { n with data := d })
  rest : SameRest t t'
  rootIdx : t'.rootIdx = t.rootIdx

/-- What `insert` does when the key is absent: it appends a node and hangs it below the step `f`. -/
structure Inserted (lt : κ → κ → Bool) (t t' : BTree κ δ) (f : Frame) (c : Around) (k : κ) (d : Option δ) : Prop where
  ok : BstOk lt t' (Around.plug (f :: c) (.node .leaf t.top .leaf))
  old : ∀ i, i ≠ t.top → (t'.at i).map BNode.core = (t.at i).map BNode.core
  new : ∃ s, t'.at t.top = some { key := some k, data := d, parent := some f.idx, size := s }
  orderStat : t'.orderStat = t.orderStat
  top : t'.top = t.top + 1
  rootIdx : t'.rootIdx = t.rootIdx
  sized : t.orderStat = true → Sized t.at (Around.plug (f :: c) .leaf) → Sized t'.at (Around.plug (f :: c) (.node .leaf t.top .leaf))

theorem BstOk.lt_top {lt : κ → κ → Bool} {t : BTree κ δ} {T : Shape} (h : BstOk lt t T) : ∀ i ∈ T.ids, i < t.top :=
  fun i hi => h.low i (linked_isSome h.tree.linked i hi)

theorem around_length {T : Shape} : ∀ {c : Around} {S : Shape}, Around.plug c S = T → c.length + S.ids.length ≤ T.ids.length := by
  intro c
  induction c with
  | nil => rintro S rfl; simp [Around.plug]
  | cons f c ih =>
    intro S e
    cases f with
    | inL i r => have := ih (S := .node S i r) e; simp [Shape.ids] at this ⊢; omega
    | inR l i => have := ih (S := .node l i S) e; simp [Shape.ids] at this ⊢; omega

theorem around_depth {T : Shape} : ∀ {c : Around} {S : Shape}, Around.plug c S = T → c.length + S.depth ≤ T.depth := by
  intro c
  induction c with
  | nil => rintro S rfl; simp [Around.plug]
  | cons f c ih =>
    intro S e
    cases f with
    | inL i r => have := ih (S := .node S i r) e; simp [Shape.depth] at this ⊢; omega
    | inR l i => have := ih (S := .node l i S) e; simp [Shape.depth] at this ⊢; omega

/-- `insert`, with the number of rounds its loops need. -/
theorem bstInsert_steps {lt : κ → κ → Bool} (ht : StrictTotal (ltRel lt)) {t : BTree κ δ} {T : Shape} (h : BstOk lt t T) (k : κ) (d : Option δ) :
    (∃ i t', i ∈ T.ids ∧ keyOf t.at i = some k ∧ Replaced t t' i d ∧ ∀ fuel > T.depth + 1, bstInsert lt fuel t k d = .ok t') ∨
    (∃ f c t', T = Around.plug (f :: c) .leaf ∧ (∀ i ∈ T.ids, keyOf t.at i ≠ some k) ∧ Inserted lt t t' f c k d ∧
      ∀ fuel > T.depth + 1, bstInsert lt fuel t k d = .ok t') := by
  obtain ⟨c, S, e, hF, hrun⟩ := search_spec ht h.tree h.srt k
  rcases hF.here with rfl | ⟨l, i, r, rfl, hi⟩
  · right
    have habs : ∀ i ∈ T.ids, keyOf t.at i ≠ some k := by rw [← e]; exact hF.absent ht
    have hT : T ≠ .leaf := by rintro rfl; have := h.tree.root; cases this
    obtain ⟨f, c', t1, e', hfit, hH, hrun'⟩ := insert_loop ht (d := d) (k := k) h.cap h.grown_le h.size_top h.low T [] hT h.tree.linked h.srt
      ⟨by simp [Around.before], by simp [Around.after]⟩ habs
    replace e' : Around.plug (f :: c') .leaf = T := e'
    subst e'
    have tr1 := hung_tree h.tree h.lt_top hH
    have hft : f.idx ≠ t.top := by
      have hm : f.idx ∈ (Around.plug (f :: c') .leaf).ids := by
        rw [Around.ids_plug]
        have := Around.up_mem (c := f :: c') rfl
        simpa [Shape.ids] using this
      exact Nat.ne_of_lt (h.lt_top _ hm)
    have hold1 : ∀ i, i ≠ t.top → (t1.at i).map BNode.core = (t.at i).map BNode.core := by
      intro i hi
      apply core_of_strip
      rw [hH.cells]
      simp only [hung, mapAt]
      by_cases hif : i = f.idx
      · subst hif; simp only [if_true, if_neg hft, Option.map_map]; congr 1; funext n; exact Frame.link_strip f _ n
      · rw [if_neg hif, if_neg hi]
    have hnew1 : t1.at t.top = some { key := some k, data := d, parent := some f.idx } := by
      rw [hH.cells]; simp [hung, mapAt, Ne.symm hft]
    have hlen : (Around.plug (f :: c') (.node .leaf t.top .leaf)).ids.length = t.top + 1 := by
      have := h.count
      rw [Around.ids_plug] at this ⊢
      simp [Shape.ids] at this ⊢; omega
    have hsrt1 : Srt lt t1.at (Around.plug (f :: c') (.node .leaf t.top .leaf)) := by
      refine srt_plug_new (k := k) (srt_congr ?_ h.srt) ⟨?_, ?_⟩ ?_
      · intro i hi; exact keyOf_of_core (hold1 i (Nat.ne_of_lt (h.lt_top i hi)))
      · intro i hi
        obtain ⟨a, ha, hlt⟩ := hfit.1 i hi
        refine ⟨a, ?_, hlt⟩
        rw [← ha]; exact keyOf_of_core (hold1 i (Nat.ne_of_lt (h.lt_top i (by rw [Around.ids_plug]; simp [hi]))))
      · intro i hi
        obtain ⟨a, ha, hlt⟩ := hfit.2 i hi
        refine ⟨a, ?_, hlt⟩
        rw [← ha]; exact keyOf_of_core (hold1 i (Nat.ne_of_lt (h.lt_top i (by rw [Around.ids_plug]; simp [hi]))))
      · simp [keyOf, hnew1]
    have hlow1 : ∀ i, (t1.at i).isSome → i < t1.top := by
      intro i hi
      rw [hH.top]
      by_cases he : i = t.top
      · omega
      · have := hold1 i he
        have hs : (t.at i).isSome := by
          cases h1 : t1.at i <;> cases h2 : t.at i <;> simp_all
        have := h.low i hs; omega
    have ok1 : BstOk lt t1 (Around.plug (f :: c') (.node .leaf t.top .leaf)) := by
      have hg := h.grown_le
      have hg2 := h.num_top
      have hg3 := h.cap
      refine ⟨tr1, hsrt1, hlow1, ?_, ?_, ?_, ?_, ?_⟩
      · rw [hH.size, hH.top, h.size_top]
      · rw [hH.num, hH.top, h.num_top]
      · rw [hlen, hH.top]
      · rw [hH.top, hH.len]; unfold grown; split <;> omega
      · rw [hH.top, hH.len]; omega
    -- the sizes
    have hnewsearch : ∀ fuel > (Around.plug (f :: c') .leaf).depth + 1, bstInsert lt fuel t k d = updateSize fuel t1 (some t.top) := by
      intro fuel hfu
      obtain ⟨n, a, en, ea⟩ := root_key h.tree h.srt
      have h1 := hrun fuel (by omega)
      have h2 := hrun' fuel (by omega)
      rw [h.tree.root] at h2
      simp [bstInsert, h1, Shape.root, bstInsertNew, getNode_ok en, ea, h2]
    have hloopN : c'.length + 1 ≤ (Around.plug (f :: c') .leaf).depth := by
      have := around_depth (c := f :: c') (S := .leaf) rfl
      simp [Shape.depth] at this; omega
    cases hos : t.orderStat with
    | false =>
      refine ⟨f, c', t1, rfl, habs, ⟨ok1, hold1, ⟨1, hnew1⟩, by rw [hH.orderStat, hos], hH.top, hH.rootIdx, by simp [hos]⟩, ?_⟩
      intro fuel hfu
      rw [hnewsearch fuel hfu]
      simp [updateSize, hH.orderStat, hos]
    | true =>
      have hAr : LinkedAround true t1.at (.inL t.top .leaf :: f :: c') Shape.leaf.root ∧ Linked true t1.at (Around.up (.inL t.top .leaf :: f :: c')) Shape.leaf :=
        (linked_plug true t1.at (.inL t.top .leaf :: f :: c') .leaf).mp tr1.linked
      obtain ⟨t2, sb, rr, rq, run2⟩ := updateSize_runs (.inL t.top .leaf :: f :: c') t1 .leaf hAr.1 hAr.2
      have hold2 : ∀ i, i ≠ t.top → (t2.at i).map BNode.core = (t.at i).map BNode.core :=
        fun i hi => (core_of_unsized (sb i)).trans (hold1 i hi)
      have hnew2 : ∃ s, t2.at t.top = some { key := some k, data := d, parent := some f.idx, size := s } := by
        have := sb t.top
        rw [hnew1] at this
        simp only [Option.map_some, Option.map_eq_some_iff] at this
        obtain ⟨m, em, hm⟩ := this
        refine ⟨m.size, ?_⟩
        rw [em]
        cases m
        simp [BNode.unsized] at hm ⊢
        simp [hm]
      refine ⟨f, c', t2, rfl, habs, ⟨?_, hold2, hnew2, by rw [rr.orderStat, hH.orderStat, hos], rr.top.trans hH.top, rq.trans hH.rootIdx, ?_⟩, ?_⟩
      · refine ⟨⟨?_, linked_congr (fun i _ => sb.links i) tr1.linked, tr1.nodup⟩, srt_congr (fun i _ => sb.key i) hsrt1, ?_, ?_, ?_, ?_, ?_, ?_⟩
        · rw [rq]; exact tr1.root
        · intro i hi
          rw [rr.top]
          apply hlow1
          have := sb i
          cases h1 : t1.at i <;> cases h2 : t2.at i <;> simp_all
        · rw [rr.size, rr.top]; exact ok1.size_top
        · rw [rr.num, rr.top]; exact ok1.num_top
        · rw [rr.top]; exact ok1.count
        · rw [rr.top, rr.len]; exact ok1.cap
        · rw [rr.top, rr.len]; exact ok1.dense
      · intro _ hsz
        obtain ⟨hsa, -⟩ := sizedAround_of_plug hsz
        have hsz1 : ∀ j ∈ Around.before (f :: c') ++ Around.after (f :: c'), (t1.at j).map BNode.size = (t.at j).map BNode.size := by
          intro j hj
          have hjt : j ≠ t.top := Nat.ne_of_lt (h.lt_top j (by rw [Around.ids_plug]; simpa [Shape.ids] using hj))
          rw [hH.cells]
          simp only [hung, mapAt]
          by_cases hif : j = f.idx
          · subst hif; simp only [if_true, if_neg hft, Option.map_map]; congr 1; funext n; cases f <;> rfl
          · rw [if_neg hif, if_neg hjt]
        obtain ⟨t3, _, _, _, hz3, run3⟩ := updateSize_loop (.inL t.top .leaf :: f :: c') t1 .leaf hAr.1 trivial
          ⟨trivial, sizedAround_congr hsz1 hsa⟩ tr1.nodup
        have := run2 (c'.length + 3) (by simp)
        rw [run3 (c'.length + 3) (by simp)] at this
        cases this
        exact hz3
      · intro fuel hfu
        rw [hnewsearch fuel hfu]
        have := run2 fuel (by simp only [List.length_cons]; omega)
        simp only [updateSize, hH.orderStat, hos, if_true]
        have this2 : whileLoop fuel walking updateSizeBody (t1, some t.top) = .ok (t2, none) := this
        rw [this2]; rfl
  · left
    have him : i ∈ T.ids := by rw [← e, Around.ids_plug]; simp [Shape.ids]
    obtain ⟨t', e1, a1, r1, q1⟩ := modNode_spec (t := t) (i := i) (fun n => { n with data := d }) (linked_isSome h.tree.linked i him)
    refine ⟨i, t', him, hi, ⟨a1, r1, q1⟩, ?_⟩
    intro fuel hfu
    simp [bstInsert, hrun fuel (by omega), Shape.root, e1]

theorem bstInsert_spec {lt : κ → κ → Bool} (ht : StrictTotal (ltRel lt)) {t : BTree κ δ} {T : Shape} (h : BstOk lt t T) (k : κ) (d : Option δ) :
    (∃ i t', i ∈ T.ids ∧ keyOf t.at i = some k ∧ Replaced t t' i d ∧ ∀ fuel > T.ids.length + 1, bstInsert lt fuel t k d = .ok t') ∨
    (∃ f c t', T = Around.plug (f :: c) .leaf ∧ (∀ i ∈ T.ids, keyOf t.at i ≠ some k) ∧ Inserted lt t t' f c k d ∧
      ∀ fuel > T.ids.length + 1, bstInsert lt fuel t k d = .ok t') := by
  have hdep := Shape.depth_le T
  rcases bstInsert_steps ht h k d with ⟨i, t', h1, h2, h3, h4⟩ | ⟨f, c, t', h1, h2, h3, h4⟩
  · exact .inl ⟨i, t', h1, h2, h3, fun fuel hf => h4 fuel (by omega)⟩
  · exact .inr ⟨f, c, t', h1, h2, h3, fun fuel hf => h4 fuel (by omega)⟩

end Props
