import Verif.Spec.TypedConv
import Verif.Model.TypedConv
import Verif.Theorems.Angular

/-! # Lemmas for C115 -/

namespace OpenKalman.TypedConv
open OpenKalman.Angular OpenKalman.Patterns

theorem image_some (L : AngleLim) (x : ℝ) : image (toCoord (some L)) x = [(L.toStat x).1, (L.toStat x).2] := by
  rw [L.toStat_eq]
  rfl

theorem encB_image (es : List Elem) (ha : AxesAndAngles es) (x : List ℝ) (hx : x.length = (es.map (·.d.dimension)).sum) :
    encB es x = imageVec (coordsOf es) x := by
  induction es generalizing x with
  | nil => rfl
  | cons e es ih =>
    have he := ha e (by simp)
    simp only [List.map_cons, List.sum_cons] at hx
    have ih' := ih (fun e' h' => ha e' (by simp [h'])) (x.drop e.d.dimension) (by rw [List.length_drop, hx]; omega)
    rw [encB_cons, ih']
    unfold imageVec coordsOf
    simp only [getD_drop]
    obtain ⟨d, er⟩ := e
    cases d with
    | dim n =>
      simp only [lims, Descriptor.dimension, Descriptor.toStat, Option.getD_some] at *
      rw [List.map_append, List.mapIdx_append, List.flatten_append, List.length_map, List.length_replicate]
      congr 1
      · apply List.ext_getElem
        · rw [List.length_flatten, List.length_take]
          have : (List.mapIdx (fun i c => image c (x.getD i 0)) (List.map toCoord (List.replicate n none))).map List.length = List.replicate n 1 := by
            apply List.ext_getElem
            · simp
            · intro i h1 h2
              simp [toCoord, image]
          rw [this, List.sum_replicate]
          simp; omega
        · intro i h1 h2
          have e1 : (List.mapIdx (fun i c => image c (x.getD i 0)) (List.map toCoord (List.replicate n none))) = (x.take n).map fun a => [a] := by
            apply List.ext_getElem
            · simp; omega
            · intro i h3 h4
              have hi : i < x.length := by simp at h4; omega
              simp [toCoord, image, List.getElem?_eq_getElem hi]
          have e2 : ((x.take n).map fun a => [a]).flatten = x.take n := by
            induction x.take n with
            | nil => rfl
            | cons a l ih => simpa using ih
          simp only [e1, e2]
      · simp [Nat.add_comm]
    | angle L =>
      simp only [lims, Descriptor.dimension] at *
      have hy : (Descriptor.angle L).toStat (x.take 1) = some [(L.toStat (x.getD 0 0)).1, (L.toStat (x.getD 0 0)).2] := by
        cases hxc : x with
        | nil => rw [hxc] at hx; simp at hx; omega
        | cons a l => rfl
      rw [hy, List.map_append, List.mapIdx_append, List.flatten_append, Option.getD_some]
      congr 1
      · simp [image_some]
      · simp [Nat.add_comm]
    | distance => exact absurd he id
    | inclination I => exact absurd he id
    | polar a L => exact absurd he id
    | spherical o S => exact absurd he id

theorem encode_image {es : List Elem} (ha : AxesAndAngles es) {x : List ℝ} (hx : x.length = (coordsOf es).length) :
    encode es x = some (imageVec (coordsOf es) x) := by
  rw [coordsOf_length es ha] at hx
  rw [encode_eq es x hx, encB_image es ha x hx]

/-- Decoding the image of a point gives its canonical numbers. -/
theorem decode_image {es : List Elem} (ha : AxesAndAngles es) {x : List ℝ} (hx : x.length = (coordsOf es).length) :
    decode es (imageVec (coordsOf es) x) = some (wrapVec es x) := by
  rw [coordsOf_length es ha] at hx
  rw [← encB_image es ha x hx, decode_eq es _ (encB_length es x hx)]
  have h1 := decB_weigh es ha (fun _ : Fin 1 => 1) (fun _ => x) (fun _ => hx)
  rw [← encB_length es x hx, weigh_one] at h1
  rw [h1]
  simp only [meanC_one]
  rfl

theorem image_congr {o : Option AngleLim} {x y : ℝ} (h : (toCoord o).Same x y) : image (toCoord o) x = image (toCoord o) y := by
  cases o with
  | none => rw [show x = y from h]
  | some L => rw [image_some, image_some, toStat_congr L h]

theorem imageVec_congr {es : List Elem} {x y : List ℝ} (h : SameVec (coordsOf es) x y) : imageVec (coordsOf es) x = imageVec (coordsOf es) y := by
  unfold imageVec
  congr 1
  apply List.ext_getElem
  · simp
  · intro i h1 h2
    simp only [List.length_mapIdx] at h1
    have hc : (coordsOf es)[i]? = some (coordsOf es)[i] := List.getElem?_eq_getElem h1
    have := h.2.2 i _ hc
    obtain ⟨o, -, ho⟩ := coordsOf_get hc
    rw [List.getElem_mapIdx, List.getElem_mapIdx]
    rw [ho] at this ⊢
    exact image_congr this

end OpenKalman.TypedConv
