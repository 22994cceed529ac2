import Verif.Proof.TypedOps

/-!
# C147–C149: functions on typed matrices

C147: concatenating and splitting typed matrices concatenates and splits the points.  C148: functions of columns and coefficients keep the class invariant, and act on the
points.  C149: `solve` of typed matrices yields a solution.
-/

namespace OpenKalman.TypedOps
open OpenKalman.Angular OpenKalman.Patterns OpenKalman.TypedConv

/-! ## C147 -/

theorem forall₂_zipWith {α β γ δ ε ζ : Type} {R : α → β → Prop} {S : γ → δ → Prop} {T : ε → ζ → Prop} {f : α → γ → ε} {g : β → δ → ζ}
    (hT : ∀ a b c d, R a b → S c d → T (f a c) (g b d)) {as : List α} {bs : List β} (h : List.Forall₂ R as bs) :
    ∀ {cs : List γ} {ds : List δ}, List.Forall₂ S cs ds → List.Forall₂ T (List.zipWith f as cs) (List.zipWith g bs ds) := by
  induction h with
  | nil => intro cs ds _; simp
  | cons hab _ ih =>
    intro cs ds h'
    cases h' with
    | nil => simp
    | cons hcd h' => exact List.Forall₂.cons (hT _ _ _ _ hab hcd) (ih h')

/-- Parts of a concatenation with `n` columns: `v.1` is the pattern of the part, and `x` are its points. -/
def IsPart (k : Angular.Kind) (n : ℕ) (v : List Elem × TM) (x : List (List ℝ)) : Prop :=
  AxesAndAngles v.1 ∧ v.2.cols.length = n ∧ List.Forall₂ (Raw k (coordsOf v.1)) x v.2.cols

theorem cat_raw {k : Angular.Kind} {n : ℕ} {vs : List (List Elem × TM)} {pts : List (List (List ℝ))} (h : List.Forall₂ (IsPart k n) vs pts) (hne : vs ≠ []) :
    ∃ c, catCols (vs.map fun v => v.2.cols) = some c ∧ c.length = n ∧ AxesAndAngles (vs.map Prod.fst).flatten ∧
      List.Forall₂ (Raw k (coordsOf (vs.map Prod.fst).flatten)) (below pts) c := by
  induction h with
  | nil => exact absurd rfl hne
  | @cons v x vs pts hv hvs ih =>
    cases hvs with
    | nil => exact ⟨v.2.cols, rfl, hv.2.1, by simpa using hv.1, by simpa [below] using hv.2.2⟩
    | @cons w y vs pts hw hvs =>
      obtain ⟨c, h1, h2, h3, h4⟩ := ih (by simp)
      refine ⟨List.zipWith (· ++ ·) v.2.cols c, ?_, by simp [hv.2.1, h2], ?_, ?_⟩
      · simp only [List.map_cons] at h1 ⊢
        simp only [catCols]
        rw [h1]
        simp [hv.2.1, h2]
      · rw [List.map_cons, List.flatten_cons]
        exact axes_append.2 ⟨hv.1, h3⟩
      · rw [List.map_cons, List.flatten_cons, coordsOf_append]
        show List.Forall₂ _ (List.zipWith (· ++ ·) _ (below (y :: pts))) _
        exact forall₂_zipWith (R := Raw k (coordsOf v.1)) (S := Raw k (coordsOf ((w :: vs).map Prod.fst).flatten)) (fun _ _ _ _ h1 h2 => raw_append h1 h2) hv.2.2 h4

/-- The concatenation of typed matrices, one below the other, stands for the points whose numbers follow each other, if they are all Euclidean-transformed or none is. -/
theorem C147_vertical_partial (v : List Elem × TM) (vs : List (List Elem × TM)) (pts : List (List (List ℝ)))
    (h : List.Forall₂ (fun w x => AxesAndAngles w.1 ∧ w.2.cols.length = v.2.cols.length ∧ StandsM (coordsOf w.1) x w.2) (v :: vs) pts)
    (hk : ∀ w ∈ vs, w.2.kind = .euclidean ↔ v.2.kind = .euclidean) :
    ∃ w, concatVertical (v :: vs) = some (((v :: vs).map Prod.fst).flatten, w) ∧ w.kind = v.2.kind ∧ StandsM (coordsOf ((v :: vs).map Prod.fst).flatten) (below pts) w := by
  cases vs with
  | nil =>
    cases h with
    | cons h1 h2 =>
      cases h2
      exact ⟨v.2, by simp [concatVertical], rfl, by simpa [below] using h1.2.2⟩
  | cons u vs =>
    have hp : List.Forall₂ (IsPart v.2.kind v.2.cols.length) (v :: u :: vs) pts := by
      rw [List.forall₂_iff_get] at h ⊢
      refine ⟨h.1, fun i h1 h2 => ?_⟩
      obtain ⟨k1, k2, k3⟩ := h.2 i h1 h2
      refine ⟨k1, k2, List.Forall₂.imp (fun x c hxc => raw_of_stands hxc ?_) k3⟩
      have hm := List.get_mem (v :: u :: vs) ⟨i, h1⟩
      rcases List.mem_cons.1 hm with hm | hm
      · rw [hm]
      · exact hk _ hm
    obtain ⟨c, h1, _, h3, h4⟩ := cat_raw hp (by simp)
    obtain ⟨w, k1, k2, k3⟩ := make_stands h3 h4
    refine ⟨w, ?_, k2, k3⟩
    simp only [concatVertical, h1, k1, bind, Option.bind, pure]

/-- Side by side. -/
theorem C147_horizontal_partial (es : List Elem) (ha : AxesAndAngles es) (v : TM) (vs : List TM) (pts : List (List (List ℝ)))
    (h : List.Forall₂ (fun w x => StandsM (coordsOf es) x w) (v :: vs) pts) (hk : ∀ w ∈ vs, w.kind = .euclidean ↔ v.kind = .euclidean) :
    ∃ w, concatHorizontal es (v :: vs) = some w ∧ w.kind = v.kind ∧ StandsM (coordsOf es) pts.flatten w := by
  cases vs with
  | nil =>
    cases h with
    | cons h1 h2 =>
      cases h2
      exact ⟨v, rfl, rfl, by simpa using h1⟩
  | cons u vs =>
    have hall : ∀ w ∈ v :: u :: vs, w.kind = .euclidean ↔ v.kind = .euclidean := by
      intro w hw
      rcases List.mem_cons.1 hw with rfl | hw
      · rfl
      · exact hk w hw
    have hraw : List.Forall₂ (Raw v.kind (coordsOf es)) pts.flatten ((v :: u :: vs).map TM.cols).flatten := by
      generalize v.kind = k at hall
      revert hall
      generalize v :: u :: vs = l at h
      intro hall
      induction h with
      | nil => simp
      | @cons w x l pts hw _ ih =>
        rw [List.map_cons, List.flatten_cons, List.flatten_cons]
        exact List.rel_append (List.Forall₂.imp (fun x c hxc => raw_of_stands hxc (hall w (by simp))) hw) (ih fun u hu => hall u (by simp [hu]))
    obtain ⟨w, k1, k2, k3⟩ := make_stands ha hraw
    exact ⟨w, by simp only [concatHorizontal, k1], k2, k3⟩

/-- A mean below a Euclidean-transformed mean of angles is refused, although both stand for points. -/
theorem C147_mixed_violated : ∃ (es : List Elem) (v w : TM) (x : List (List ℝ)), StandsM (coordsOf es) x v ∧ StandsM (coordsOf es) x w ∧ v.kind = .euclidean ∧ w.kind = .mean ∧
    concatVertical [(es, v), (es, w)] = none := by
  refine ⟨[⟨.angle degrees360, false⟩], ⟨.euclidean, [imageVec (coordsOf [⟨.angle degrees360, false⟩]) [0]]⟩, ⟨.mean, [[0]]⟩, [[0]], ?_, ?_, rfl, rfl, ?_⟩
  · exact List.Forall₂.cons ⟨rfl, rfl⟩ .nil
  · refine List.Forall₂.cons ⟨sameVec_refl rfl, rfl, fun i c hc => ?_⟩ .nil
    have hi : i < 1 := (List.getElem?_eq_some_iff.1 hc).1
    interval_cases i
    simp only [coordsOf, lims, List.append_nil, List.map_cons, List.map_nil, List.getElem?_cons_zero, Option.some.injEq] at hc
    subst hc
    simp [toCoord, degrees360, Coord.Canonical]
  · simp [concatVertical, catCols, make, rowsOf, Descriptor.statDimension, imageVec, coordsOf, lims, toCoord, image]

/-! ### On the diagonal -/

theorem zeros_same (es : List Elem) : SameVec (coordsOf es) (List.replicate (coordsOf es).length 0) (List.replicate (coordsOf es).length 0) := sameVec_refl (by simp)

/-- Blocks on the diagonal, if none is Euclidean-transformed: zeros are the numbers of a point. -/
theorem C147_diagonal_partial (v w : List Elem × TM) (xs ys : List (List ℝ)) (ha : AxesAndAngles v.1) (ha' : AxesAndAngles w.1) (h : StandsM (coordsOf v.1) xs v.2)
    (h' : StandsM (coordsOf w.1) ys w.2) (hk : v.2.kind ≠ .euclidean) (hk' : w.2.kind ≠ .euclidean) :
    ∃ u, concatDiagonal v w = some (v.1 ++ w.1, u) ∧ u.kind = v.2.kind ∧
      StandsM (coordsOf (v.1 ++ w.1)) (xs.map (· ++ List.replicate (coordsOf w.1).length 0) ++ ys.map (List.replicate (coordsOf v.1).length 0 ++ ·)) u := by
  obtain ⟨es, v⟩ := v
  obtain ⟨es', w⟩ := w
  dsimp only at *
  have hz : ∀ (fs : List Elem), Raw v.kind (coordsOf fs) (List.replicate (coordsOf fs).length 0) (List.replicate (coordsOf fs).length 0) := by
    intro fs
    cases hv : v.kind with
    | euclidean => exact absurd hv hk
    | matrix => exact zeros_same fs
    | mean => exact zeros_same fs
  have hraw : List.Forall₂ (Raw v.kind (coordsOf (es ++ es'))) (xs.map (· ++ List.replicate (coordsOf es').length 0) ++ ys.map (List.replicate (coordsOf es).length 0 ++ ·))
      (v.cols.map (· ++ List.replicate (rowsOf w.kind es') 0) ++ w.cols.map (List.replicate (rowsOf v.kind es) 0 ++ ·)) := by
    rw [coordsOf_append, rowsOf_plain hk' ha', rowsOf_plain hk ha]
    refine List.rel_append ?_ ?_
    · rw [List.forall₂_map_left_iff, List.forall₂_map_right_iff]
      exact List.Forall₂.imp (fun x c hxc => raw_append (raw_of_stands hxc Iff.rfl) (hz es')) h
    · rw [List.forall₂_map_left_iff, List.forall₂_map_right_iff]
      exact List.Forall₂.imp (fun x c hxc => raw_append (hz es) (raw_of_stands hxc ⟨fun e => absurd e hk', fun e => absurd e hk⟩)) h'
  obtain ⟨u, k1, k2, k3⟩ := make_stands (axes_append.2 ⟨ha, ha'⟩) hraw
  refine ⟨u, ?_, k2, k3⟩
  simp only [concatDiagonal, k1, bind, Option.bind, pure]

/-- With Euclidean-transformed means the zeros are the image of no point: the result stands for nothing. -/
theorem C147_diagonal_violated : ∃ (es : List Elem) (v : TM) (x : List (List ℝ)) (u : TM), StandsM (coordsOf es) x v ∧ v.kind = .euclidean ∧
    concatDiagonal (es, v) (es, v) = some (es ++ es, u) ∧ ∀ y, ¬ StandsM (coordsOf (es ++ es)) y u := by
  let es : List Elem := [⟨.angle degrees360, false⟩]
  have h0 : imageVec (coordsOf es) [0] = [1, 0] := by
    simp [es, imageVec, coordsOf, lims, toCoord, image, circlePoint]
  refine ⟨es, ⟨.euclidean, [[1, 0]]⟩, [[0]], ⟨.euclidean, [[1, 0, 0, 0], [0, 0, 1, 0]]⟩, ?_, rfl, ?_, ?_⟩
  · exact List.Forall₂.cons ⟨rfl, h0.symm⟩ .nil
  · simp [es, concatDiagonal, make, rowsOf, Descriptor.statDimension, List.replicate]
  · intro y hy
    cases hy with
    | cons h1 h2 =>
      rename_i a l
      have h3 : [1, 0, 0, 0] = imageVec (coordsOf (es ++ es)) a := h1.2
      simp only [es, imageVec, coordsOf, lims, toCoord, image, List.append_nil, List.cons_append, List.nil_append, List.map_cons, List.map_nil, List.mapIdx_cons, List.mapIdx_nil,
        List.flatten_cons, List.flatten_nil, List.cons.injEq] at h3
      have h4 := circle_unit (degrees360.max - degrees360.min) (a.getD (0 + 1) 0)
      rw [← h3.2.2.1, ← h3.2.2.2.1] at h4
      norm_num at h4

/-! ### Splitting -/

theorem raw_split {k : Angular.Kind} {es es' : List Elem} (ha : AxesAndAngles es) {x c : List ℝ} (h : Raw k (coordsOf (es ++ es')) x c) :
    Raw k (coordsOf es) (x.take (coordsOf es).length) (c.take (rowsOf k es)) ∧ Raw k (coordsOf es') (x.drop (coordsOf es).length) (c.drop (rowsOf k es)) := by
  rw [coordsOf_append] at h
  cases k with
  | matrix =>
    rw [rowsOf_plain (by simp) ha]
    exact ⟨sameVec_take h, sameVec_drop h⟩
  | mean =>
    rw [rowsOf_plain (by simp) ha]
    exact ⟨sameVec_take h, sameVec_drop h⟩
  | euclidean =>
    obtain ⟨h1, h2⟩ := h
    rw [List.length_append] at h1
    have hl : (x.take (coordsOf es).length).length = (coordsOf es).length := by rw [List.length_take]; omega
    have h3 : c = imageVec (coordsOf es) (x.take (coordsOf es).length) ++ imageVec (coordsOf es') (x.drop (coordsOf es).length) := by
      rw [h2, ← imageVec_append hl, List.take_append_drop]
    have h4 := imageVec_length ha hl
    refine ⟨⟨hl, ?_⟩, ⟨by rw [List.length_drop]; omega, ?_⟩⟩
    · rw [h3, ← h4, List.take_left]
    · rw [h3, ← h4, List.drop_left]

/-- The parts stand for the numbers of the points in turn. -/
def PartsStand : List (List Elem) → List (List ℝ) → List TM → Prop
  | [], _, ws => ws = []
  | _ :: _, _, [] => False
  | c :: cs, xs, w :: ws => StandsM (coordsOf c) (xs.map (·.take (coordsOf c).length)) w ∧ PartsStand cs (xs.map (·.drop (coordsOf c).length)) ws

/-- Splitting rows. -/
theorem C147_split (cs : List (List Elem)) (rest : List Elem) (v : TM) (xs : List (List ℝ)) (ha : ∀ c ∈ cs, AxesAndAngles c) (h : StandsM (coordsOf (cs.flatten ++ rest)) xs v) :
    ∃ ws, splitVertical v.kind cs v.cols = some ws ∧ PartsStand cs xs ws ∧ ∀ w ∈ ws, w.kind = v.kind := by
  have h0 : List.Forall₂ (Raw v.kind (coordsOf (cs.flatten ++ rest))) xs v.cols := List.Forall₂.imp (fun x c hxc => raw_of_stands hxc Iff.rfl) h
  clear h
  generalize v.kind = k at h0
  generalize v.cols = cols at h0
  induction cs generalizing xs cols with
  | nil => exact ⟨[], rfl, rfl, by simp⟩
  | cons c cs ih =>
    rw [List.flatten_cons, List.append_assoc] at h0
    have hc := ha c (by simp)
    have h1 : List.Forall₂ (Raw k (coordsOf c)) (xs.map (·.take (coordsOf c).length)) (cols.map (·.take (rowsOf k c))) := by
      rw [List.forall₂_map_left_iff, List.forall₂_map_right_iff]
      exact h0.imp fun x d hxd => (raw_split hc hxd).1
    have h2 : List.Forall₂ (Raw k (coordsOf (cs.flatten ++ rest))) (xs.map (·.drop (coordsOf c).length)) (cols.map (·.drop (rowsOf k c))) := by
      rw [List.forall₂_map_left_iff, List.forall₂_map_right_iff]
      exact h0.imp fun x d hxd => (raw_split hc hxd).2
    obtain ⟨w, k1, k2, k3⟩ := make_stands hc h1
    obtain ⟨ws, l1, l2, l3⟩ := ih _ (fun d hd => ha d (by simp [hd])) _ h2
    refine ⟨w :: ws, ?_, ⟨k3, l2⟩, ?_⟩
    · simp only [splitVertical, k1, l1, bind, Option.bind, pure]
    · intro u hu
      rcases List.mem_cons.1 hu with rfl | hu
      · exact k2
      · exact l3 u hu

theorem zipWith_take (a b : List (List ℝ)) (m : ℕ) (hl : a.length = b.length) (ha : ∀ c ∈ a, c.length = m) :
    (List.zipWith (· ++ ·) a b).map (·.take m) = a ∧ (List.zipWith (· ++ ·) a b).map (·.drop m) = b := by
  induction a generalizing b with
  | nil =>
    cases b with
    | nil => simp
    | cons _ _ => simp at hl
  | cons c a ih =>
    cases b with
    | nil => simp at hl
    | cons d b =>
      obtain ⟨h1, h2⟩ := ih b (by simpa using hl) (fun e he => ha e (by simp [he]))
      have hc := ha c (by simp)
      simp only [List.zipWith_cons_cons, List.map_cons, h1, h2]
      rw [← hc, List.take_left, List.drop_left]
      exact ⟨rfl, rfl⟩

theorem split_cat {k : Angular.Kind} {n : ℕ} (vs : List (List Elem × TM)) (hv : ∀ v ∈ vs, AxesAndAngles v.1 ∧ v.2.kind = k ∧ v.2.cols.length = n ∧ Valid v.1 v.2) (c : List (List ℝ))
    (hc : catCols (vs.map fun v => v.2.cols) = some c) :
    splitVertical k (vs.map Prod.fst) c = some (vs.map Prod.snd) ∧ c.length = n ∧ Valid (vs.map Prod.fst).flatten ⟨k, c⟩ := by
  induction vs generalizing c with
  | nil => simp [catCols] at hc
  | cons v vs ih =>
    obtain ⟨h1, h2, h3, h4⟩ := hv v (by simp)
    cases vs with
    | nil =>
      simp only [List.map_cons, List.map_nil, catCols, Option.some.injEq] at hc
      subst hc
      have ht : v.2.cols.map (·.take (rowsOf k v.1)) = v.2.cols := by
        conv_rhs => rw [← List.map_id v.2.cols]
        refine List.map_congr_left fun d hd => ?_
        rw [List.take_of_length_le (by rw [(h4 d hd).1, h2])]
        rfl
      refine ⟨?_, h3, ?_⟩
      · have hm := make_valid h1 h4
        rw [h2] at hm
        simp only [List.map_cons, List.map_nil, splitVertical, ht, hm, bind, Option.bind, pure]
      · simp only [List.map_cons, List.map_nil, List.flatten_cons, List.flatten_nil, List.append_nil]
        rw [← h2]
        exact h4
    | cons u vs =>
      simp only [List.map_cons, catCols, bind, Option.bind] at hc
      split at hc
      · cases hc
      · rename_i r hr
        obtain ⟨k1, k2, k3⟩ := ih (fun w hw => hv w (by simp [hw])) r (by simpa using hr)
        dsimp only at hc
        rw [if_pos (by rw [h3, k2])] at hc
        cases hc
        obtain ⟨z1, z2⟩ := zipWith_take v.2.cols r (rowsOf k v.1) (by rw [h3, k2]) (fun d hd => by rw [(h4 d hd).1, h2])
        refine ⟨?_, by simp [h3, k2], ?_⟩
        · have hm := make_valid h1 h4
          rw [h2] at hm
          rw [List.map_cons (l := u :: vs), List.map_cons (l := u :: vs), splitVertical, z1, z2, hm, k1]
          rfl
        · rw [List.map_cons, List.flatten_cons]
          intro e he
          obtain ⟨i, hi, rfl⟩ := List.mem_iff_getElem.1 he
          simp only [List.length_zipWith] at hi
          rw [List.getElem_zipWith]
          have g1 := h4 (v.2.cols[i]'(by omega)) (List.getElem_mem _)
          have g2 := k3 (r[i]'(by omega)) (List.getElem_mem _)
          rw [h2] at g1
          exact ⟨by rw [List.length_append, rowsOf_append, g1.1, g2.1], fun hk => by rw [coordsOf_append]; exact canonicalVec_append (g1.2 hk) (g2.2 hk)⟩

/-- Splitting a concatenation gives back the parts, if they are of one kind. -/
theorem C147_split_concat {k : Angular.Kind} (v : List Elem × TM) (vs : List (List Elem × TM))
    (hv : ∀ w ∈ v :: vs, AxesAndAngles w.1 ∧ w.2.kind = k ∧ w.2.cols.length = v.2.cols.length ∧ Valid w.1 w.2) :
    ∃ w, concatVertical (v :: vs) = some (((v :: vs).map Prod.fst).flatten, w) ∧ splitVertical w.kind ((v :: vs).map Prod.fst) w.cols = some ((v :: vs).map Prod.snd) := by
  have hex : ∀ l : List (List Elem × TM), l ≠ [] → (∀ w ∈ l, w.2.cols.length = v.2.cols.length) → ∃ c, catCols (l.map fun v => v.2.cols) = some c ∧ c.length = v.2.cols.length := by
    intro l
    induction l with
    | nil => intro h; exact absurd rfl h
    | cons a l ih =>
      intro _ hl
      cases l with
      | nil => exact ⟨a.2.cols, rfl, hl a (by simp)⟩
      | cons b l =>
        obtain ⟨c, h1, h2⟩ := ih (by simp) fun w hw => hl w (by simp [hw])
        have ha := hl a (by simp)
        refine ⟨List.zipWith (· ++ ·) a.2.cols c, ?_, by simp [ha, h2]⟩
        simp only [List.map_cons] at h1 ⊢
        simp only [catCols]
        rw [h1]
        simp [ha, h2]
  obtain ⟨c, hc, _⟩ := hex (v :: vs) (by simp) fun w hw => (hv w hw).2.2.1
  obtain ⟨h1, h2, h3⟩ := split_cat (v :: vs) hv c hc
  cases vs with
  | nil =>
    have hv0 := hv v (by simp)
    refine ⟨v.2, by simp [concatVertical], ?_⟩
    simp only [List.map_cons, List.map_nil, catCols, Option.some.injEq] at hc
    rw [hv0.2.1, hc]
    exact h1
  | cons u vs =>
    have hk := (hv v (by simp)).2.1
    have haxes : ∀ l : List (List Elem × TM), (∀ w ∈ l, AxesAndAngles w.1) → AxesAndAngles (l.map Prod.fst).flatten := by
      intro l
      induction l with
      | nil => intro _ e he; simp at he
      | cons a l ih =>
        intro hl
        rw [List.map_cons, List.flatten_cons]
        exact axes_append.2 ⟨hl a (by simp), ih fun w hw => hl w (by simp [hw])⟩
    have hm := make_valid (haxes (v :: u :: vs) fun w hw => (hv w hw).1) h3
    dsimp only at hm
    refine ⟨⟨k, c⟩, ?_, h1⟩
    simp only [concatVertical, hc, hk, hm, bind, Option.bind, pure]

/-- Splitting columns gives back the parts of a horizontal concatenation. -/
theorem C147_split_columns {k : Angular.Kind} (es : List Elem) (ha : AxesAndAngles es) (v : TM) (vs : List TM) (hv : ∀ w ∈ v :: vs, w.kind = k ∧ Valid es w) :
    ∃ w, concatHorizontal es (v :: vs) = some w ∧ splitHorizontal w.kind es ((v :: vs).map fun u => u.cols.length) w.cols = some (v :: vs) := by
  have hsplit : ∀ l : List TM, (∀ w ∈ l, w.kind = k ∧ Valid es w) → splitHorizontal k es (l.map fun u => u.cols.length) (l.map TM.cols).flatten = some l := by
    intro l
    induction l with
    | nil => intro _; rfl
    | cons a l ih =>
      intro hl
      obtain ⟨h1, h2⟩ := hl a (by simp)
      have hm := make_valid ha h2
      rw [h1] at hm
      rw [List.map_cons, List.map_cons, List.flatten_cons]
      simp only [splitHorizontal, List.take_left, List.drop_left, hm, ih fun w hw => hl w (by simp [hw]), bind, Option.bind, pure]
  have hval : Valid es ⟨k, ((v :: vs).map TM.cols).flatten⟩ := by
    intro c hc
    obtain ⟨l, hl, hcl⟩ := List.mem_flatten.1 hc
    obtain ⟨w, hw, rfl⟩ := List.mem_map.1 hl
    obtain ⟨h1, h2⟩ := hv w hw
    rw [← h1]
    exact h2 c hcl
  have hk := (hv v (by simp)).1
  cases vs with
  | nil =>
    refine ⟨v, rfl, ?_⟩
    have := hsplit [v] hv
    rw [hk]
    simpa using this
  | cons u vs =>
    have hm := make_valid ha hval
    refine ⟨⟨k, ((v :: u :: vs).map TM.cols).flatten⟩, ?_, hsplit _ hv⟩
    simp only [concatHorizontal, hk]
    exact hm

/-- An angle of 350° below an axis and another angle; and splitting again. -/
example : ∃ w, concatVertical [([⟨.angle degrees360, false⟩], ⟨.mean, [[350]]⟩), (axisAngle, ⟨.mean, [[5, 10]]⟩)] = some (⟨.angle degrees360, false⟩ :: axisAngle, w) ∧
    splitVertical w.kind [[⟨.angle degrees360, false⟩], axisAngle] w.cols = some [⟨.mean, [[350]]⟩, ⟨.mean, [[5, 10]]⟩] := by
  refine C147_split_concat (k := .mean) ([⟨.angle degrees360, false⟩], ⟨.mean, [[350]]⟩) [(axisAngle, ⟨.mean, [[5, 10]]⟩)] ?_
  intro w hw
  simp only [List.mem_cons, List.not_mem_nil, or_false] at hw
  rcases hw with rfl | rfl
  · refine ⟨by intro e he; simp at he; subst he; trivial, rfl, rfl, fun c hc => ⟨?_, fun _ => ⟨?_, fun i d hd => ?_⟩⟩⟩
    all_goals simp only [List.mem_cons, List.not_mem_nil, or_false] at hc; subst hc
    · rfl
    · rfl
    · have hi : i < 1 := (List.getElem?_eq_some_iff.1 hd).1
      interval_cases i
      simp [coordsOf, lims, toCoord, degrees360] at hd
      subst hd
      norm_num [Coord.Canonical]
  · refine ⟨axisAngle_ok, rfl, rfl, fun c hc => ⟨?_, fun _ => ⟨?_, fun i d hd => ?_⟩⟩⟩
    all_goals simp only [List.mem_cons, List.not_mem_nil, or_false] at hc; subst hc
    · rfl
    · rfl
    · have hi : i < 2 := (List.getElem?_eq_some_iff.1 hd).1
      interval_cases i <;> simp [coordsOf, lims, axisAngle, toCoord, degrees360] at hd <;> subst hd <;> norm_num [Coord.Canonical]

/-! ## C148 -/

theorem mapM_some {α β : Type} {f : α → Option β} {g : α → β} {l : List α} (h : ∀ a ∈ l, f a = some (g a)) : l.mapM f = some (l.map g) := by
  induction l with
  | nil => rfl
  | cons a l ih =>
    rw [List.mapM_cons, h a (by simp), ih fun b hb => h b (by simp [hb])]
    rfl

theorem zipIdx_map {α β : Type} (f : ℕ → α → β) (l : List α) : (l.zipIdx.map fun c => f c.2 c.1) = l.mapIdx f := by
  apply List.ext_getElem
  · simp
  · intro i h1 h2
    simp

/-- Wrapping at the end makes a matrix. -/
theorem rewrap_eq {k : Angular.Kind} {es : List Elem} (ha : AxesAndAngles es) {cols : List (List ℝ)} (h : ∀ c ∈ cols, c.length = rowsOf k es) :
    ((rewrap k es cols).map fun c => (⟨k, c⟩ : TM)) = make k es cols := by
  unfold make rewrap
  rw [if_pos h]
  cases k with
  | matrix => simp
  | euclidean => simp
  | mean =>
    by_cases he : es.all (·.staticEuclidean) = true
    · have hw : cols.mapM (wrapAngles es) = some (cols.map id) := mapM_some fun c _ => by simp [wrapAngles, he]
      rw [hw, List.map_id]
      simp [he]
    · rw [mapM_wrap ha cols fun c hc => (h c hc).trans (rowsOf_plain (by simp) ha)]
      simp [he]

/-- The columns that a function is called with are those of the matrix. -/
theorem make_column {es : List Elem} (ha : AxesAndAngles es) {v : TM} (h : Valid es v) {c : List ℝ} (hc : c ∈ v.cols) : make v.kind es [c] = some ⟨v.kind, [c]⟩ := by
  refine make_valid (v := ⟨v.kind, [c]⟩) ha ?_
  intro d hd
  rw [List.mem_singleton] at hd
  subst hd
  exact h d hc

theorem columnsInPlace_eq {es : List Elem} (ha : AxesAndAngles es) {v : TM} (h : Valid es v) (f : ℕ → List ℝ → List ℝ) (hf : ∀ i c, c.length = rowsOf v.kind es → (f i c).length = rowsOf v.kind es) :
    columnsInPlace es f v = make v.kind es (v.cols.mapIdx f) := by
  have h1 : (v.cols.zipIdx).mapM (fun c => (make v.kind es [c.1]).bind fun m => some (f c.2 (m.cols.getD 0 []))) = some (v.cols.mapIdx f) := by
    rw [← zipIdx_map]
    refine mapM_some fun c hc => ?_
    rw [make_column ha h (List.fst_mem_of_mem_zipIdx hc)]
    rfl
  have h2 : ∀ c ∈ v.cols.mapIdx f, c.length = rowsOf v.kind es := by
    intro c hc
    obtain ⟨i, hi, rfl⟩ := List.mem_mapIdx.1 hc
    exact hf i _ (h _ (List.getElem_mem hi)).1
  have h3 := rewrap_eq ha h2
  simp only [columnsInPlace, bind, pure] at h1 ⊢
  rw [h1, ← h3]
  rw [Option.bind_some]
  cases rewrap v.kind es (v.cols.mapIdx f) <;> rfl

/-- A change of a typed matrix. -/
inductive Change
  | columns (f : ℕ → List ℝ → List ℝ)
  | coefficients (f : ℕ → ℕ → ℝ → ℝ)

/-- The function keeps the number of rows. -/
def Change.Proper (n : ℕ) : Change → Prop
  | .columns f => ∀ i c, c.length = n → (f i c).length = n
  | .coefficients _ => True

noncomputable def Change.run (es : List Elem) (v : TM) : Change → Option TM
  | .columns f => columnsInPlace es f v
  | .coefficients f => coefficientsInPlace es f v

/-- The numbers without any wrapping. -/
def Change.raw (cols : List (List ℝ)) : Change → List (List ℝ)
  | .columns f => cols.mapIdx f
  | .coefficients f => cols.mapIdx fun j c => c.mapIdx fun i a => f i j a

theorem change_eq {es : List Elem} (ha : AxesAndAngles es) {v : TM} (h : Valid es v) (o : Change) (ho : o.Proper (rowsOf v.kind es)) : o.run es v = make v.kind es (o.raw v.cols) := by
  cases o with
  | columns f => exact columnsInPlace_eq ha h f ho
  | coefficients f =>
    have h2 : ∀ c ∈ v.cols.mapIdx (fun j c => c.mapIdx fun i a => f i j a), c.length = rowsOf v.kind es := by
      intro c hc
      obtain ⟨i, hi, rfl⟩ := List.mem_mapIdx.1 hc
      rw [List.length_mapIdx]
      exact (h _ (List.getElem_mem hi)).1
    have h3 := rewrap_eq ha h2
    simp only [Change.run, Change.raw, coefficientsInPlace, bind, pure]
    rw [← h3]
    cases rewrap v.kind es (v.cols.mapIdx fun j c => c.mapIdx fun i a => f i j a) <;> rfl

theorem make_some {k : Angular.Kind} {es : List Elem} (ha : AxesAndAngles es) {cols : List (List ℝ)} (h : ∀ c ∈ cols, c.length = rowsOf k es) : (make k es cols).isSome = true := by
  unfold make
  rw [if_pos h]
  cases k with
  | matrix => rfl
  | euclidean => rfl
  | mean =>
    rw [mapM_wrap ha cols fun c hc => (h c hc).trans (rowsOf_plain (by simp) ha)]
    rfl

theorem change_lengths {es : List Elem} {v : TM} (h : Valid es v) (o : Change) (ho : o.Proper (rowsOf v.kind es)) : ∀ c ∈ o.raw v.cols, c.length = rowsOf v.kind es := by
  intro c hc
  cases o with
  | columns f =>
    obtain ⟨i, hi, rfl⟩ := List.mem_mapIdx.1 hc
    exact ho i _ (h _ (List.getElem_mem hi)).1
  | coefficients f =>
    obtain ⟨i, hi, rfl⟩ := List.mem_mapIdx.1 hc
    rw [List.length_mapIdx]
    exact (h _ (List.getElem_mem hi)).1

/-- After any sequence of changes by functions the numbers of a mean are canonical, and those of the other classes are of the right number. -/
theorem C148_invariant (es : List Elem) (ha : AxesAndAngles es) (v : TM) (h : Valid es v) (os : List Change) (ho : ∀ o ∈ os, o.Proper (rowsOf v.kind es)) :
    ∃ w, os.foldlM (Change.run es) v = some w ∧ Valid es w ∧ w.kind = v.kind ∧ w.cols.length = v.cols.length := by
  induction os generalizing v with
  | nil => exact ⟨v, rfl, h, rfl, rfl⟩
  | cons o os ih =>
    have h1 := change_eq ha h o (ho o (by simp))
    obtain ⟨w, hw⟩ := Option.isSome_iff_exists.1 (make_some ha (change_lengths h o (ho o (by simp))))
    obtain ⟨k1, k2, k3⟩ := valid_make ha hw
    obtain ⟨u, u1, u2, u3, u4⟩ := ih w k2 (fun p hp => by rw [k1]; exact ho p (by simp [hp]))
    refine ⟨u, ?_, u2, u3.trans k1, ?_⟩
    · rw [List.foldlM_cons, h1, hw]
      exact u1
    · rw [u4, k3]
      cases o <;> simp [Change.raw]

/-- If the function takes numbers of points to numbers of points, then the matrix changed stands for the points changed. -/
theorem C148_points (es : List Elem) (ha : AxesAndAngles es) (v : TM) (hv : Valid es v) (xs : List (List ℝ)) (h : StandsM (coordsOf es) xs v) (f F : ℕ → List ℝ → List ℝ)
    (hf : ∀ i x c, Raw v.kind (coordsOf es) x c → Raw v.kind (coordsOf es) (F i x) (f i c)) (hl : ∀ i c, c.length = rowsOf v.kind es → (f i c).length = rowsOf v.kind es) :
    ∃ w, columnsInPlace es f v = some w ∧ w.kind = v.kind ∧ StandsM (coordsOf es) (xs.mapIdx F) w := by
  rw [columnsInPlace_eq ha hv f hl]
  refine make_stands ha ?_
  rw [List.forall₂_iff_get]
  have h' := List.forall₂_iff_get.1 h
  refine ⟨by simp [h'.1], fun i h1 h2 => ?_⟩
  simp only [List.length_mapIdx] at h1 h2
  simp only [List.get_eq_getElem, List.getElem_mapIdx]
  exact hf i _ _ (raw_of_stands (h'.2 i h1 h2) Iff.rfl)

/-- The same for the function that returns a matrix, of another kind `k` and pattern `rs` if need be. -/
theorem C148_points_returned (es rs : List Elem) (k : Angular.Kind) (ha : AxesAndAngles es) (hr : AxesAndAngles rs) (v : TM) (hv : Valid es v) (xs : List (List ℝ))
    (h : StandsM (coordsOf es) xs v) (g F : ℕ → List ℝ → List ℝ) (hf : ∀ i x c, Raw v.kind (coordsOf es) x c → Raw k (coordsOf rs) (F i x) (g i c)) :
    ∃ w, columns es k rs g v = some w ∧ w.kind = k ∧ StandsM (coordsOf rs) (xs.mapIdx F) w := by
  have h' := List.forall₂_iff_get.1 h
  have hone : ∀ i (hi : i < v.cols.length) (hx : i < xs.length), ∃ r, make k rs [g i v.cols[i]] = some ⟨k, [r]⟩ ∧ Raw k (coordsOf rs) (F i xs[i]) r := by
    intro i hi hx
    obtain ⟨w, w1, w2, w3⟩ := make_stands (k := k) hr (xs := [F i xs[i]]) (cols := [g i v.cols[i]]) (List.Forall₂.cons (hf i _ _ (raw_of_stands (h'.2 i hx hi) Iff.rfl)) .nil)
    obtain ⟨kw, cw⟩ := w
    dsimp only at w2
    subst w2
    cases w3 with
    | cons s1 s2 =>
      cases s2
      exact ⟨_, w1, raw_of_stands s1 Iff.rfl⟩
  choose! r hr1 hr2 using fun (i : ℕ) (hi : i < v.cols.length) => hone i hi (by rw [h'.1]; exact hi)
  have h1 : (v.cols.zipIdx).mapM (fun c => (make v.kind es [c.1]).bind fun m => (make k rs [g c.2 (m.cols.getD 0 [])]).bind fun r => some (r.cols.getD 0 [])) =
      some (v.cols.mapIdx fun i _ => r i) := by
    rw [← zipIdx_map]
    refine mapM_some fun c hc => ?_
    obtain ⟨i, hi, rfl⟩ := List.mem_iff_getElem.1 hc
    rw [List.length_zipIdx] at hi
    simp only [List.getElem_zipIdx, Nat.zero_add]
    rw [make_column ha hv (List.getElem_mem hi)]
    simp only [Option.bind_some, List.getD_cons_zero]
    rw [hr1 i hi]
    rfl
  have h2 := make_stands (k := k) hr (xs := xs.mapIdx F) (cols := v.cols.mapIdx fun i _ => r i) (by
    rw [List.forall₂_iff_get]
    refine ⟨by simp [h'.1], fun i h3 h4 => ?_⟩
    simp only [List.length_mapIdx] at h3 h4
    simp only [List.get_eq_getElem, List.getElem_mapIdx]
    exact hr2 i h4)
  obtain ⟨w, w1, w2, w3⟩ := h2
  refine ⟨w, ?_, w2, w3⟩
  simp only [columns, bind, pure] at h1 ⊢
  rw [h1]
  exact w1

/-- Changing in place is the same as assigning what is returned. -/
theorem C148_coefficients_agree (es : List Elem) (ha : AxesAndAngles es) (v : TM) (hv : Valid es v) (f : ℕ → ℕ → ℝ → ℝ) : coefficientsInPlace es f v = coefficients es f v :=
  change_eq ha hv (.coefficients f) trivial

/-- Adding 20° to both of two angles of 350° and 10°. -/
example : ∃ w, columnsInPlace [⟨.angle degrees360, false⟩] (fun _ c => c.map (· + 20)) ⟨.mean, [[350], [10]]⟩ = some w ∧ Valid [⟨.angle degrees360, false⟩] w := by
  have ha : AxesAndAngles [⟨.angle degrees360, false⟩] := by intro e he; simp at he; subst he; trivial
  obtain ⟨w, h1, h2, _⟩ := C148_invariant [⟨.angle degrees360, false⟩] ha ⟨.mean, [[350], [10]]⟩ (by
    intro c hc
    simp only [List.mem_cons, List.not_mem_nil, or_false] at hc
    rcases hc with rfl | rfl
    all_goals
      refine ⟨rfl, fun _ => ⟨rfl, fun i d hd => ?_⟩⟩
      have hi : i < 1 := (List.getElem?_eq_some_iff.1 hd).1
      interval_cases i
      simp [coordsOf, lims, toCoord, degrees360] at hd
      subst hd
      norm_num [Coord.Canonical]) [.columns fun _ c => c.map (· + 20)] (by
    intro o ho
    rw [List.mem_singleton] at ho
    subst ho
    intro i c hc
    simpa using hc)
  exact ⟨w, by simpa [Change.run] using h1, h2⟩

/-! ## C149 -/

open Matrix

/-- `solve` with a right side that is a `Matrix`, or whose pattern has no angles, yields a solution. -/
theorem C149_solve_partial {n : ℕ} (A : Matrix (Fin n) (Fin n) ℝ) (hA : IsUnit A.det) (es : List Elem) (ha : AxesAndAngles es) (b : Typed) (hn : n = (coordsOf es).length)
    (hk : b.kind = .matrix ∨ b.kind = .mean ∧ ∀ c ∈ coordsOf es, c = .line) :
    ∃ x, solveColumn A es b = some x ∧ x.kind = b.kind ∧ (A *ᵥ fun i => x.col.getD i 0) = fun i : Fin n => b.col.getD i 0 := by
  obtain ⟨k, b⟩ := b
  dsimp only at hk
  have hsol : (A *ᵥ fun i : Fin n => (List.ofFn (A⁻¹ *ᵥ fun i : Fin n => b.getD i 0)).getD i 0) = fun i : Fin n => b.getD i 0 := by
    have : (fun i : Fin n => (List.ofFn (A⁻¹ *ᵥ fun i : Fin n => b.getD i 0)).getD i 0) = A⁻¹ *ᵥ fun i : Fin n => b.getD i 0 := by
      funext i
      simp [List.getD_eq_getElem?_getD]
    rw [this, mulVec_mulVec, mul_nonsing_inv _ hA, one_mulVec]
  have hlen : (List.ofFn (A⁻¹ *ᵥ fun i : Fin n => b.getD i 0)).length = rowsOf k es := by
    rw [List.length_ofFn, hn, rowsOf_plain (by rcases hk with h | h <;> simp_all) ha]
  refine ⟨⟨k, List.ofFn (A⁻¹ *ᵥ fun i : Fin n => b.getD i 0)⟩, ?_, rfl, hsol⟩
  have hv : Valid es ⟨k, [List.ofFn (A⁻¹ *ᵥ fun i : Fin n => b.getD i 0)]⟩ := by
    intro c hc
    rw [List.mem_singleton] at hc
    subst hc
    refine ⟨hlen, fun hm => ⟨hlen.trans (rowsOf_plain (by dsimp only at hm; simp [hm]) ha), fun i d hd => ?_⟩⟩
    dsimp only at hm
    rcases hk with h | h
    · rw [hm] at h; cases h
    · rw [h.2 d (List.mem_of_getElem? hd)]
      trivial
  have hm := make_valid ha hv
  dsimp only at hm
  simp only [solveColumn, hm, bind, Option.bind, pure]
  rfl

/-- With a mean of angles it does not: half of the solution of `x / 2 = 180` is 0, for `x` has been wrapped from 360 to 0. -/
theorem C149_angles_violated : ∃ (A : Matrix (Fin 1) (Fin 1) ℝ) (es : List Elem) (b x : Typed), IsUnit A.det ∧ StandsM (coordsOf es) [[180]] ⟨b.kind, [b.col]⟩ ∧ b.kind = .mean ∧
    solveColumn A es b = some x ∧ ¬ SameVec (coordsOf es) (List.ofFn (A *ᵥ fun i => x.col.getD i 0)) b.col := by
  have ha : AxesAndAngles [⟨.angle degrees360, false⟩] := by intro e he; simp at he; subst he; trivial
  have hcs : coordsOf [⟨.angle degrees360, false⟩] = [.circle 0 360 false] := by simp [coordsOf, lims, toCoord, degrees360]
  have hinv : (Matrix.of fun _ _ => 1 / 2 : Matrix (Fin 1) (Fin 1) ℝ)⁻¹ = Matrix.of fun _ _ => 2 := by
    refine Matrix.inv_eq_right_inv ?_
    ext i j
    obtain rfl := Subsingleton.elim i j
    simp [Matrix.mul_apply]
  have hcan : CanonicalVec (coordsOf [⟨.angle degrees360, false⟩]) [0] := by
    rw [hcs]
    refine ⟨rfl, fun i d hd => ?_⟩
    have hi : i < 1 := (List.getElem?_eq_some_iff.1 hd).1
    interval_cases i
    simp at hd
    subst hd
    norm_num [Coord.Canonical]
  have hw : wrapVec [⟨.angle degrees360, false⟩] [360] = [0] := by
    refine (wrapVec_congr (y := [0]) ?_).trans (wrapVec_of_canonical hcan)
    rw [hcs]
    refine ⟨rfl, rfl, fun i d hd => ?_⟩
    have hi : i < 1 := (List.getElem?_eq_some_iff.1 hd).1
    interval_cases i
    simp at hd
    subst hd
    exact ⟨-1, by norm_num⟩
  have hmake : make .mean [⟨.angle degrees360, false⟩] [[360]] = some ⟨.mean, [[0]]⟩ := by
    unfold make
    rw [if_pos (by simp [rowsOf, Descriptor.dimension])]
    dsimp only
    rw [mapM_wrap ha _ (by simp [coordsOf, lims])]
    simp [hw]
  refine ⟨Matrix.of fun _ _ => 1 / 2, [⟨.angle degrees360, false⟩], ⟨.mean, [180]⟩, ⟨.mean, [0]⟩, ?_, ?_, rfl, ?_, ?_⟩
  · rw [Matrix.det_fin_one]
    norm_num
  · refine List.Forall₂.cons ⟨sameVec_refl (by rw [hcs]; rfl), by rw [hcs]; rfl, fun i d hd => ?_⟩ .nil
    rw [hcs] at hd
    have hi : i < 1 := (List.getElem?_eq_some_iff.1 hd).1
    interval_cases i
    simp at hd
    subst hd
    norm_num [Coord.Canonical]
  · have hx : List.ofFn ((Matrix.of fun _ _ => 1 / 2 : Matrix (Fin 1) (Fin 1) ℝ)⁻¹ *ᵥ fun i : Fin 1 => ([180] : List ℝ).getD i 0) = [360] := by
      rw [hinv]
      simp [Matrix.mulVec, dotProduct]
      norm_num
    simp only [solveColumn, hx, hmake, bind, Option.bind, pure]
    rfl
  · intro h
    rw [hcs] at h
    have := h.2.2 0 _ rfl
    obtain ⟨k, hk⟩ := this
    simp [Matrix.mulVec, dotProduct] at hk
    have h2 : (180 : ℝ) = k * 360 ∨ (0 : ℝ) - 180 = k * 360 ∨ (180 : ℝ) = -(k * 360) := by
      exact Or.inl (by linarith)
    have h3 : (2 * k : ℤ) = 1 ∨ (2 * k : ℤ) = -1 := by
      rcases h2 with h2 | h2 | h2
      · left
        have : (2 * k : ℝ) = 1 := by linarith
        exact_mod_cast this
      · right
        have : (2 * k : ℝ) = -1 := by linarith
        exact_mod_cast this
      · right
        have : (2 * k : ℝ) = -1 := by linarith
        exact_mod_cast this
    omega

/-- An axis, with the matrix 2. -/
example : ∃ x, solveColumn (Matrix.of fun _ _ => 2 : Matrix (Fin 1) (Fin 1) ℝ) [⟨.dim 1, false⟩] ⟨.mean, [10]⟩ = some x ∧
    ((Matrix.of fun _ _ => 2 : Matrix (Fin 1) (Fin 1) ℝ) *ᵥ fun i => x.col.getD i 0) = fun i : Fin 1 => ([10] : List ℝ).getD i 0 := by
  obtain ⟨x, h1, _, h2⟩ := C149_solve_partial (Matrix.of fun _ _ => 2 : Matrix (Fin 1) (Fin 1) ℝ) (by rw [Matrix.det_fin_one]; norm_num) [⟨.dim 1, false⟩]
    (by intro e he; simp at he; subst he; trivial) ⟨.mean, [10]⟩ (by simp [coordsOf, lims]) (Or.inr ⟨rfl, by simp [coordsOf, lims, toCoord]⟩)
  exact ⟨x, h1, h2⟩

end OpenKalman.TypedOps
