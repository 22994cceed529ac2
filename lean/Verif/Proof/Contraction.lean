import Verif.Model.Contraction
import Mathlib.Data.List.GetD
import Mathlib.Algebra.Star.BigOperators
import Mathlib.Algebra.BigOperators.Ring.List
import Mathlib.Tactic.Ring

/-! # Lemmas on contractions of tensors -/

namespace OpenKalman.Contraction

variable {𝕜 : Type}

theorem mem_positions {dims x : List ℕ} : x ∈ positions dims ↔ InRange dims x := by
  unfold InRange
  induction dims generalizing x with
  | nil => simp [positions]
  | cons d ds ih =>
    simp only [positions, List.mem_flatMap, List.mem_range, List.mem_map, ih]
    constructor
    · rintro ⟨i, hi, y, hy, rfl⟩
      exact .cons hi hy
    · intro h
      cases h with
      | cons h1 h2 => exact ⟨_, h1, _, h2, rfl⟩

theorem length_positions (dims : List ℕ) : (positions dims).length = dims.prod := by
  induction dims with
  | nil => rfl
  | cons d ds ih =>
    simp only [positions, List.length_flatMap, List.length_map, ih, List.prod_cons]
    induction d with
    | zero => simp
    | succ d hd => rw [List.range_succ, List.map_append, List.sum_append, hd]; simp; ring

theorem mem_free {n : ℕ} {is : List ℕ} {i : ℕ} : i ∈ free n is ↔ i < n ∧ i ∉ is := by simp [free]

theorem InRange.getD_lt {dims x : List ℕ} (h : InRange dims x) {i : ℕ} (hi : i < dims.length) : x.getD i 0 < dims.getD i 0 := by
  have hl := h.length_eq
  have := h.get (i := i) (by omega) hi
  rw [List.getD_eq_getElem _ _ (by omega), List.getD_eq_getElem _ _ hi]
  exact this

/-- What is placed is in range. -/
theorem place_inRange {a : Ten 𝕜} {is k z : List ℕ} (hk : InRange (is.map a.dim) k)
    (hz : InRange ((free a.rank is).map a.dim) z) : InRange a.dims (place a.rank is k z) := by
  unfold InRange
  rw [List.forall₂_iff_get]
  refine ⟨by simp [place, Ten.rank], fun i h1 h2 => ?_⟩
  have hi : i < a.rank := h2
  have hd : a.dims.get ⟨i, h2⟩ = a.dim i := by
    unfold Ten.dim
    rw [List.getD_eq_getElem _ _ h2]; rfl
  rw [hd]
  simp only [place, List.get_eq_getElem, List.getElem_map, List.getElem_range]
  split
  · rename_i hm
    have hx : is.idxOf i < is.length := List.idxOf_lt_length_iff.mpr hm
    have := hk.getD_lt (i := is.idxOf i) (by simpa using hx)
    rw [List.getD_eq_getElem (is.map a.dim) _ (by simpa using hx)] at this
    simpa using this
  · rename_i hm
    have hf : i ∈ free a.rank is := mem_free.mpr ⟨hi, hm⟩
    have hx : (free a.rank is).idxOf i < (free a.rank is).length := List.idxOf_lt_length_iff.mpr hf
    have := hz.getD_lt (i := (free a.rank is).idxOf i) (by simpa using hx)
    rw [List.getD_eq_getElem ((free a.rank is).map a.dim) _ (by simpa using hx)] at this
    simpa using this

theorem InRange.take {d e x : List ℕ} (h : InRange (d ++ e) x) : InRange d (x.take d.length) := by
  have := List.forall₂_take d.length h
  simpa [InRange] using this

theorem InRange.drop {d e x : List ℕ} (h : InRange (d ++ e) x) : InRange e (x.drop d.length) := by
  have := List.forall₂_drop d.length h
  simpa [InRange] using this

/-- The positions that are read for a component of the contraction are in range. -/
theorem reads_inRange [Add 𝕜] [Mul 𝕜] [Zero 𝕜] {a b : Ten 𝕜} {ps : List (ℕ × ℕ)} (h : Contractible a b ps) {z k : List ℕ}
    (hz : InRange (contract a b ps).dims z) (hk : k ∈ positions (ps.map fun p => a.dim p.1)) :
    InRange a.dims (place a.rank (ps.map Prod.fst) k (z.take (free a.rank (ps.map Prod.fst)).length)) ∧
    InRange b.dims (place b.rank (ps.map Prod.snd) k (z.drop (free a.rank (ps.map Prod.fst)).length)) := by
  rw [mem_positions] at hk
  constructor
  · refine place_inRange (by simpa [List.map_map, Function.comp_def] using hk) ?_
    simpa using hz.take
  · refine place_inRange ?_ ?_
    · have : ps.map (fun p => a.dim p.1) = (ps.map Prod.snd).map b.dim := by
        rw [List.map_map]
        exact List.map_congr_left fun p hp => h.dims p hp
      rwa [this] at hk
    · simpa using hz.drop

/-- The contraction of constants is the product of the constants and the contracted extents. -/
theorem contract_const [CommSemiring 𝕜] {a b : Ten 𝕜} {ps : List (ℕ × ℕ)} (h : Contractible a b ps) {c k : 𝕜} (ha : a.Const c) (hb : b.Const k) :
    (contract a b ps).Const (((ps.map fun p => a.dim p.1).prod : ℕ) * (c * k)) := by
  intro z hz
  show ((positions (ps.map fun p => a.dim p.1)).map _).sum = _
  rw [List.map_congr_left (g := fun _ => c * k)]
  · rw [List.map_const', List.sum_replicate, length_positions, nsmul_eq_mul]
  · intro x hx
    have := reads_inRange h hz hx
    rw [ha _ this.1, hb _ this.2]

theorem contract_zero [CommSemiring 𝕜] {a b : Ten 𝕜} {ps : List (ℕ × ℕ)} (h : Contractible a b ps) (h0 : a.Const 0 ∨ b.Const 0) : (contract a b ps).Const 0 := by
  intro z hz
  show ((positions (ps.map fun p => a.dim p.1)).map _).sum = _
  refine List.sum_eq_zero fun x hx => ?_
  obtain ⟨k, hk, rfl⟩ := List.mem_map.mp hx
  have := reads_inRange h hz hk
  obtain h0 | h0 := h0
  · rw [h0 _ this.1, zero_mul]
  · rw [h0 _ this.2, mul_zero]

theorem factor_eq [CommSemiring 𝕜] {dims : List ℕ} {ps : List (ℕ × ℕ)} {f : ℕ × ℕ → ℕ} (h : ∀ p ∈ ps, dims[p.1]? = some (f p)) (x : 𝕜) :
    factor dims ps x = some (x * ((ps.map f).prod : ℕ)) := by
  induction ps generalizing x with
  | nil => simp [factor]
  | cons p ps ih =>
    rw [factor, h p (by simp)]
    show factor dims ps (x * (f p : 𝕜)) = _
    rw [ih fun q hq => h q (by simp [hq])]
    simp [mul_assoc]

theorem sum_range_ite [CommSemiring 𝕜] {n i : ℕ} (hi : i < n) (g : ℕ → 𝕜) : ((List.range n).map fun k => if i = k then g k else 0).sum = g i := by
  induction n with
  | zero => omega
  | succ n ih =>
    rw [List.range_succ, List.map_append, List.sum_append]
    by_cases h : i < n
    · rw [ih h]; simp [show i ≠ n by omega]
    · obtain rfl : i = n := by omega
      rw [List.sum_eq_zero]
      · simp
      · intro x hx
        obtain ⟨k, hk, rfl⟩ := List.mem_map.mp hx
        rw [if_neg (by have := List.mem_range.mp hk; omega)]

theorem positions_one (n : ℕ) : positions [n] = (List.range n).map fun i => [i] := by
  simp only [positions, List.map_cons, List.map_nil]
  induction List.range n with
  | nil => rfl
  | cons a l ih => simp [ih]

theorem free_two {p : ℕ} (hp : p < 2) : free 2 [p] = [1 - p] := by
  obtain rfl | rfl : p = 0 ∨ p = 1 := by omega
  all_goals decide

theorem place_two {p : ℕ} (hp : p < 2) (k z : ℕ) : place 2 [p] [k] [z] = if p = 0 then [k, z] else [z, k] := by
  obtain rfl | rfl : p = 0 ∨ p = 1 := by omega
  all_goals simp [place, free, List.range_succ]

theorem positions_two (n : ℕ) : positions [n, n] = (List.range n).flatMap fun i => (List.range n).map fun j => [i, j] := by
  show (List.range n).flatMap (fun i => (positions [n]).map (i :: ·)) = _
  rw [positions_one]
  simp only [List.map_map, Function.comp_def]

theorem sum_map_flatMap [AddCommMonoid 𝕜] {α β : Type} (f : β → 𝕜) (g : α → List β) (l : List α) : ((l.flatMap g).map f).sum = (l.map fun x => ((g x).map f).sum).sum := by
  induction l with
  | nil => rfl
  | cons a l ih => simp [ih]

theorem free_both {p p' : ℕ} (hp : p < 2) (hp' : p' < 2) (h : p ≠ p') : free 2 [p, p'] = [] := by
  obtain ⟨rfl, rfl⟩ | ⟨rfl, rfl⟩ : (p = 0 ∧ p' = 1) ∨ (p = 1 ∧ p' = 0) := by omega
  all_goals decide

theorem place_both {p p' : ℕ} (hp : p < 2) (hp' : p' < 2) (h : p ≠ p') (i j : ℕ) (z : List ℕ) : place 2 [p, p'] [i, j] z = if p = 0 then [i, j] else [j, i] := by
  obtain ⟨rfl, rfl⟩ | ⟨rfl, rfl⟩ : (p = 0 ∧ p' = 1) ∨ (p = 1 ∧ p' = 0) := by omega
  all_goals simp [place, List.range_succ]

/-- The sum over the diagonal. -/
theorem sum_diagonal [CommSemiring 𝕜] (n : ℕ) (x : 𝕜) {f : List ℕ → 𝕜} (hf : ∀ i < n, ∀ j < n, f [i, j] = if i = j then x else 0) :
    ((positions [n, n]).map f).sum = n * x := by
  rw [positions_two, sum_map_flatMap]
  have : ∀ i ∈ List.range n, (((List.range n).map fun j => [i, j]).map f).sum = x := fun i hi => by
    rw [List.map_map]
    refine Eq.trans ?_ (sum_range_ite (List.mem_range.mp hi) fun _ => x)
    congr 1
    exact List.map_congr_left fun j hj => hf i (List.mem_range.mp hi) j (List.mem_range.mp hj)
  rw [List.map_congr_left this]
  simp

end OpenKalman.Contraction
