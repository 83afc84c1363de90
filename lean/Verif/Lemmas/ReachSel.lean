import Verif.Lemmas.ErgodicExp
import Verif.Lemmas.ReachKernels

/-!
# The resampling schemes and last moves of the experiments leave every particle a chance
-/

open scoped ENNReal
open MeasureTheory

namespace Verif
open Verif.Spec Verif.Model

variable {N : ℕ}

theorem sel_reach {resampling last_step : String} {R : Resampling Ex N} {mv : AncestorMove Ex N} (hR : sel_resampling resampling = .ok R)
    (hm : sel_last_step last_step = .ok mv) (hN : N ≠ 0) (backward : Bool) : ReachOK R mv backward where
  N := hN
  off _ key w hw hpos i j l hl := by
    have hs := sel_spreads hR false key w hw hpos i j l fun _ => hl
    unfold sel_resampling at hR
    split_ifs at hR with h1 h2 <;> cases hR
    · exact killing_offspring_ne key hw hpos hl j
    · intro h0
      rw [h0, nonpos_iff_eq_zero, mul_eq_zero, spreadOf, if_pos h2] at hs
      rcases hs with h | h
      · exact hN (by exact_mod_cast h)
      · exact (ENNReal.ofReal_pos.mpr (hpos l)).ne' h
  move := by
    refine ⟨awayOf N last_step, ?_, fun key => sel_movesAway hm key⟩
    unfold awayOf
    split_ifs
    · exact one_ne_zero
    · exact (ENNReal.ofReal_pos.mpr (by positivity)).ne'

end Verif
