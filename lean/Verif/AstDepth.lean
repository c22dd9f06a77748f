import Verif.AstTerm
import Mathlib.Tactic.Ring
import Mathlib.Tactic.Linarith

/-!
# The nesting bound grows linearly with the input
-/

namespace Rodkina.Ast

theorem max_linear {N a b x y : Nat} (h1 : a ≤ (N + 1) * x) (h2 : b ≤ (N + 1) * y) : max a b ≤ (N + 1) * max x y := by
  apply Nat.max_le.mpr
  exact ⟨Nat.le_trans h1 (Nat.mul_le_mul_left _ (Nat.le_max_left _ _)), Nat.le_trans h2 (Nat.mul_le_mul_left _ (Nat.le_max_right _ _))⟩

theorem plain_linear {N d a x : Nat} (h : a ≤ (N + 1) * x) : N * d + d + a ≤ (N + 1) * (0 * d + d + x) := by
  have : (N + 1) * (0 * d + d + x) = N * d + d + (N + 1) * x := by ring
  omega

mutual
theorem tokenX_linear (N : Nat) : ∀ t : Token, tokenX N t ≤ (N + 1) * tokenX 0 t
  | .mk _ ls _ => by simp only [tokenX]; exact linesX_linear N ls
  termination_by t => (sizeOf t, 0)
  decreasing_by all_goals simp_wf; (try omega)
theorem linesX_linear (N : Nat) : ∀ ls : List GLine, linesX N ls ≤ (N + 1) * linesX 0 ls
  | [] => by simp [linesX]
  | g :: gs => by simp only [linesX]; exact max_linear (lineX_linear N g) (linesX_linear N gs)
  termination_by ls => (sizeOf ls, 0)
  decreasing_by all_goals simp_wf; (try omega)
theorem lineX_linear (N : Nat) : ∀ g : GLine, lineX N g ≤ (N + 1) * lineX 0 g
  | .mk cs => by simp only [lineX]; exact containersX_linear N cs
  termination_by g => (sizeOf g, 0)
  decreasing_by all_goals simp_wf; (try omega)
theorem containersX_linear (N : Nat) : ∀ cs : List Container, containersX N cs ≤ (N + 1) * containersX 0 cs
  | [] => by simp [containersX]
  | c :: cs => by simp only [containersX]; exact max_linear (containerX_linear N c) (containersX_linear N cs)
  termination_by cs => (sizeOf cs, 0)
  decreasing_by all_goals simp_wf; (try omega)
theorem containerX_linear (N : Nat) : ∀ c : Container, containerX N c ≤ (N + 1) * containerX 0 c
  | .element _ _ c => by simp only [containerX]; exact contentX_linear N c
  | .compose _ => by simp [containerX]
  termination_by c => (sizeOf c, 0)
  decreasing_by all_goals simp_wf; (try omega)
theorem contentX_linear (N : Nat) : ∀ c : Content, contentX N c ≤ (N + 1) * contentX 0 c
  | .value _ _ => by simp [contentX]
  | .external _ g => by simp only [contentX]; exact grammarX_linear N g
  | .token t => by simp only [contentX]; exact tokenX_linear N t
  | .everything _ ex none => by simp only [contentX]; exact tokenX_linear N ex
  | .everything _ ex (some esc) => by simp only [contentX]; exact max_linear (tokenX_linear N ex) (tokenX_linear N esc)
  | .recursive _ => by simp [contentX]
  termination_by c => (sizeOf c, 0)
  decreasing_by all_goals simp_wf; (try omega)
theorem grammarX_linear (N : Nat) : ∀ g : Grammar, grammarX N g ≤ (N + 1) * grammarX 0 g
  | .mk root chs => by
    simp only [grammarX]
    exact plain_linear (max_linear (tokenX_linear N root) (channelsX_linear N chs))
  termination_by g => (sizeOf g, 0)
  decreasing_by all_goals simp_wf; (try omega)
theorem channelsX_linear (N : Nat) : ∀ cs : List Channel, channelsX N cs ≤ (N + 1) * channelsX 0 cs
  | [] => by simp [channelsX]
  | c :: cs => by simp only [channelsX]; exact max_linear (channelX_linear N c) (channelsX_linear N cs)
  termination_by cs => (sizeOf cs, 0)
  decreasing_by all_goals simp_wf; (try omega)
theorem channelX_linear (N : Nat) : ∀ c : Channel, channelX N c ≤ (N + 1) * channelX 0 c
  | .mk t none none => by simp only [channelX]; exact plain_linear (tokenX_linear N t)
  | .mk t (some a) none => by
    simp only [channelX]; exact max_linear (plain_linear (tokenX_linear N t)) (plain_linear (tokenX_linear N a))
  | .mk t none (some b) => by
    simp only [channelX]; exact max_linear (plain_linear (tokenX_linear N t)) (plain_linear (tokenX_linear N b))
  | .mk t (some a) (some b) => by
    simp only [channelX]
    exact max_linear (plain_linear (tokenX_linear N t))
      (max_linear (plain_linear (tokenX_linear N a)) (plain_linear (tokenX_linear N b)))
  termination_by c => (sizeOf c, 0)
  decreasing_by all_goals simp_wf; (try omega)
end

end Rodkina.Ast
