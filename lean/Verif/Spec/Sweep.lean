import Verif.Spec.Transition

/-!
Specification vocabulary for C62: expected values under the posterior.
-/
namespace Cgpm.Spec
open Cgpm Cgpm.Props

/-- SPEC. The expected value of `f` under the distribution on the latent structures whose weights are
`W`. -/
noncomputable def latentMean {cols : Finset Col} {rows : Finset Row} (W f : Latent cols rows → ℝ) : ℝ :=
  (∑ L ∈ latents cols rows, W L * f L) / ∑ L ∈ latents cols rows, W L

end Cgpm.Spec
