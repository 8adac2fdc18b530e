import Verif.Conv.Props

/-!
# C46: exactly when the destination numbers of order HWCN are right
-/

namespace Verif.Conv

/-- **C46, exact (order HWCN).** The code numbers the outputs in row-major order `[y, x, channel]` if and only if the output has a single column or as many
rows as channels. -/
theorem C46_hwcn_numbering_exact (g : Cfg) (hy : 0 < g.yout) (hc : 0 < g.cout) :
    (∀ x y k, x < g.xout → y < g.yout → k < g.cout → dstHWCN g x y k = y * g.xout * g.cout + x * g.cout + k) ↔
      g.xout ≤ 1 ∨ g.yout = g.cout := by
  constructor
  · intro h
    by_contra hn
    rw [not_or] at hn
    have := h 1 0 0 (by omega) hy hc
    simp only [dstHWCN] at this
    omega
  · rintro (h | h) x y k hx _ _
    · have : x = 0 := by omega
      subst this
      simp [dstHWCN]
    · simp only [dstHWCN, h]

/-- **C46, exact (order HWCN).** If the output has at least two columns and fewer rows than channels, two different outputs get the same number, so that one
output always receives the sum of two. -/
theorem C46_hwcn_collision (g : Cfg) (hx : 2 ≤ g.xout) (hy : 0 < g.yout) (hlt : g.yout < g.cout) :
    dstHWCN g 1 0 0 = dstHWCN g 0 0 g.yout ∧ g.yout < g.cout := by
  simp [dstHWCN, hlt]

example : (dstHWCN cfgHWCN 1 0 0 = dstHWCN cfgHWCN 0 0 1) ∧ cfgHWCN.xout = 2 ∧ cfgHWCN.yout = 1 ∧ cfgHWCN.cout = 2 := by decide

end Verif.Conv
