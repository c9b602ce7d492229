import Verif.Model.HlsDriver
import Verif.Proofs.Hls
import Verif.Proofs.Cuda
/-!
# The driver of the HLS tokenizer
-/

namespace Lib842
open Spec

theorem apShr_eq {x : List Bool} {k : Nat} (hk : k ≤ x.length) :
    apShr x k = List.replicate k false ++ x.take (x.length - k) := by
  unfold apShr
  rw [List.take_append, List.take_of_length_le (by simp; omega), List.length_replicate]

theorem apVal_shr {x : List Bool} {k : Nat} (hk : k ≤ x.length) :
    apVal (apShr x k) = bitsVal (x.take (x.length - k)) := by
  rw [apVal_eq, apShr_eq hk, ← bitsOf_zero_val, bitsVal_zeros]

theorem length_token {g : List Bool} (h : g.length ≤ 69) : (token g).length = 69 := by
  simp only [token, List.length_append, List.length_replicate]; omega

theorem hlsRead_token {g : List Bool} (h : CutAt g) (last : Bool) :
    hlsRead ⟨token g, last⟩ = .ok (bitsVal (g.take 5), bitsVal (g.drop 5)) := by
  have hle := h.len
  obtain ⟨h5, hl⟩ := h
  have h69 : g.length ≤ 69 := by omega
  have hlen := length_token h69
  unfold hlsRead
  have e1 : apGet (token g) 68 64 = .ok (g.take 5) := by
    rw [apGet_top (n := 69) hlen (by omega) (by omega), token, List.take_append_of_le_length (by omega)]
  have e2 : apGet (token g) 63 0 = .ok ((token g).drop 5) := by
    unfold apGet
    rw [if_pos (by omega), hlen]
    congr 1
    exact List.take_of_length_le (by rw [List.length_drop, hlen])
  simp only [e1, e2, bind, Except.bind]
  rw [if_neg (by rw [apVal_eq]; omega)]
  have hd : ((token g).drop 5).length = 64 := by rw [List.length_drop, hlen]
  have := apVal_shr (x := (token g).drop 5) (k := 64 - hlsParamLength (bitsVal (g.take 5))) (by omega)
  rw [hd] at this
  have this : apVal (apShr ((token g).drop 5) (64 - hlsParamLength (apVal (g.take 5)))) = _ := this
  rw [this]
  have ht : ((token g).drop 5).take (64 - (64 - hlsParamLength (bitsVal (g.take 5)))) = g.drop 5 := by
    rw [token, List.drop_append_of_le_length (by omega), List.take_append_of_le_length (by rw [List.length_drop]; omega),
      List.take_of_length_le (by rw [List.length_drop]; omega)]
  rw [ht]; rfl

theorem hlsPrint_pieces (gs : List (List Bool)) (h : ∀ g ∈ gs, CutAt g) :
    hlsPrint (gs.map pieceTok ++ [endTok]) =
      .ok (gs.map (fun g => (bitsVal (g.take 5), bitsVal (g.drop 5))) ++ [(0x1e, 0)], []) := by
  induction gs with
  | nil => decide
  | cons g gs ih =>
    simp only [List.map_cons, List.cons_append, hlsPrint]
    rw [pieceTok, hlsRead_token (h g (by simp)) false, ih fun x hx => h x (by simp [hx])]
    rfl

end Lib842
