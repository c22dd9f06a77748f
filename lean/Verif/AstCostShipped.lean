import Verif.AstCostProps
import Verif.AstShipped

/-!
# The shipped grammar: depth and steps (C153)
-/

namespace Rodkina.Ast

mutual
/-- Does every line occurring in the token, at any depth, pass the check. -/
def tokenAllB (p : GLine → Bool) : Token → Bool
  | .mk _ ls _ => linesAllB p ls
/-- Every line of a list. -/
def linesAllB (p : GLine → Bool) : List GLine → Bool
  | [] => true
  | g :: gs => lineAllB p g && linesAllB p gs
/-- The line itself and every line below. -/
def lineAllB (p : GLine → Bool) : GLine → Bool
  | .mk cs => p (.mk cs) && containersAllB p cs
/-- Every line below the containers. -/
def containersAllB (p : GLine → Bool) : List Container → Bool
  | [] => true
  | c :: cs => containerAllB p c && containersAllB p cs
/-- Every line below a container. -/
def containerAllB (p : GLine → Bool) : Container → Bool
  | .element _ _ c => contentAllB p c
  | .compose _ => true
/-- Every line below a content. -/
def contentAllB (p : GLine → Bool) : Content → Bool
  | .value _ _ => true
  | .external _ g => grammarAllB p g
  | .token t => tokenAllB p t
  | .everything _ ex none => tokenAllB p ex
  | .everything _ ex (some esc) => tokenAllB p ex && tokenAllB p esc
  | .recursive _ => true
/-- Every line of a grammar. -/
def grammarAllB (p : GLine → Bool) : Grammar → Bool
  | .mk root chs => tokenAllB p root && channelsAllB p chs
/-- Every line of the channels. -/
def channelsAllB (p : GLine → Bool) : List Channel → Bool
  | [] => true
  | c :: cs => channelAllB p c && channelsAllB p cs
/-- Every line of a channel. -/
def channelAllB (p : GLine → Bool) : Channel → Bool
  | .mk t none none => tokenAllB p t
  | .mk t (some a) none => tokenAllB p t && tokenAllB p a
  | .mk t none (some b) => tokenAllB p t && tokenAllB p b
  | .mk t (some a) (some b) => tokenAllB p t && (tokenAllB p a && tokenAllB p b)
end

section
variable {p : GLine → Bool} {q : GLine → Prop} (h : ∀ g, p g = true → q g)

mutual
theorem tokenAllB_All (h : ∀ g, p g = true → q g) : ∀ t : Token, tokenAllB p t = true → t.All q
  | .mk _ ls _ => fun e => by
    simp only [tokenAllB] at e
    simp only [Token.All]
    exact linesAllB_All h ls e
  termination_by t => (sizeOf t, 0)
  decreasing_by all_goals simp_wf; (try omega)
theorem linesAllB_All (h : ∀ g, p g = true → q g) : ∀ ls : List GLine, linesAllB p ls = true → linesAll q ls
  | [] => fun _ => by simp [linesAll]
  | g :: gs => fun e => by
    simp only [linesAllB, Bool.and_eq_true] at e
    simp only [linesAll]
    exact ⟨lineAllB_All h g e.1, linesAllB_All h gs e.2⟩
  termination_by ls => (sizeOf ls, 0)
  decreasing_by all_goals simp_wf; (try omega)
theorem lineAllB_All (h : ∀ g, p g = true → q g) : ∀ g : GLine, lineAllB p g = true → g.All q
  | .mk cs => fun e => by
    simp only [lineAllB, Bool.and_eq_true] at e
    simp only [GLine.All]
    exact ⟨h _ e.1, containersAllB_All h cs e.2⟩
  termination_by g => (sizeOf g, 0)
  decreasing_by all_goals simp_wf; (try omega)
theorem containersAllB_All (h : ∀ g, p g = true → q g) : ∀ cs : List Container, containersAllB p cs = true → containersAll q cs
  | [] => fun _ => by simp [containersAll]
  | c :: cs => fun e => by
    simp only [containersAllB, Bool.and_eq_true] at e
    simp only [containersAll]
    exact ⟨containerAllB_All h c e.1, containersAllB_All h cs e.2⟩
  termination_by cs => (sizeOf cs, 0)
  decreasing_by all_goals simp_wf; (try omega)
theorem containerAllB_All (h : ∀ g, p g = true → q g) : ∀ c : Container, containerAllB p c = true → c.All q
  | .element _ _ c => fun e => by
    simp only [containerAllB] at e
    simp only [Container.All]
    exact contentAllB_All h c e
  | .compose _ => fun _ => by simp [Container.All]
  termination_by c => (sizeOf c, 0)
  decreasing_by all_goals simp_wf; (try omega)
theorem contentAllB_All (h : ∀ g, p g = true → q g) : ∀ c : Content, contentAllB p c = true → c.All q
  | .value _ _ => fun _ => by simp [Content.All]
  | .external _ g => fun e => by
    simp only [contentAllB] at e
    simp only [Content.All]
    exact grammarAllB_All h g e
  | .token t => fun e => by
    simp only [contentAllB] at e
    simp only [Content.All]
    exact tokenAllB_All h t e
  | .everything _ ex none => fun e => by
    simp only [contentAllB] at e
    simp only [Content.All]
    exact tokenAllB_All h ex e
  | .everything _ ex (some esc) => fun e => by
    simp only [contentAllB, Bool.and_eq_true] at e
    simp only [Content.All]
    exact ⟨tokenAllB_All h ex e.1, tokenAllB_All h esc e.2⟩
  | .recursive _ => fun _ => by simp [Content.All]
  termination_by c => (sizeOf c, 0)
  decreasing_by all_goals simp_wf; (try omega)
theorem grammarAllB_All (h : ∀ g, p g = true → q g) : ∀ g : Grammar, grammarAllB p g = true → g.All q
  | .mk root chs => fun e => by
    simp only [grammarAllB, Bool.and_eq_true] at e
    simp only [Grammar.All]
    exact ⟨tokenAllB_All h root e.1, channelsAllB_All h chs e.2⟩
  termination_by g => (sizeOf g, 0)
  decreasing_by all_goals simp_wf; (try omega)
theorem channelsAllB_All (h : ∀ g, p g = true → q g) : ∀ cs : List Channel, channelsAllB p cs = true → channelsAll q cs
  | [] => fun _ => by simp [channelsAll]
  | c :: cs => fun e => by
    simp only [channelsAllB, Bool.and_eq_true] at e
    simp only [channelsAll]
    exact ⟨channelAllB_All h c e.1, channelsAllB_All h cs e.2⟩
  termination_by cs => (sizeOf cs, 0)
  decreasing_by all_goals simp_wf; (try omega)
theorem channelAllB_All (h : ∀ g, p g = true → q g) : ∀ c : Channel, channelAllB p c = true → c.All q
  | .mk t none none => fun e => by
    simp only [channelAllB] at e
    simp only [Channel.All]
    exact tokenAllB_All h t e
  | .mk t (some a) none => fun e => by
    simp only [channelAllB, Bool.and_eq_true] at e
    simp only [Channel.All]
    exact ⟨tokenAllB_All h t e.1, tokenAllB_All h a e.2⟩
  | .mk t none (some b) => fun e => by
    simp only [channelAllB, Bool.and_eq_true] at e
    simp only [Channel.All]
    exact ⟨tokenAllB_All h t e.1, tokenAllB_All h b e.2⟩
  | .mk t (some a) (some b) => fun e => by
    simp only [channelAllB, Bool.and_eq_true] at e
    simp only [Channel.All]
    exact ⟨tokenAllB_All h t e.1, tokenAllB_All h a e.2.1, tokenAllB_All h b e.2.2⟩
  termination_by c => (sizeOf c, 0)
  decreasing_by all_goals simp_wf; (try omega)
end
end

/-- The check that a line contains no reference by name. -/
def lineFlatB (g : GLine) : Bool := g.containers.all (fun c => !c.isRecursive)

theorem lineFlatB_flat (g : GLine) (h : lineFlatB g = true) : lineFlat g := by
  intro c hc
  have := List.all_eq_true.mp h c hc
  simpa using this

theorem shipped_flatB : grammarAllB lineFlatB Shipped.grammar = true := by decide +kernel

theorem shipped_flat : Shipped.grammar.All lineFlat := grammarAllB_All lineFlatB_flat Shipped.grammar shipped_flatB

theorem shipped_depth : grammarX 0 Shipped.grammar = 12 := by decide +kernel

theorem shipped_width : grammarW Shipped.grammar = 256 := by decide +kernel

end Rodkina.Ast

namespace Rodkina.Props

open Rodkina.Ast Rodkina.Ast.Cost

/-- **C153.** Reading a text with the shipped grammar always ends: at most twelve calls of `token` inside one another, and a number of steps
that is at most a fixed polynomial of the length of the text. -/
theorem C153_shipped_bounds (input : Bytes) :
    NestsWithin Shipped.grammar input 12 ∧
    (∃ k, Takes Shipped.grammar input k) ∧
    ∀ k, Takes Shipped.grammar input k → k ≤ (37 * 256 ^ 4) ^ 12 * (input.length + 1) ^ 36 := by
  refine ⟨?_, (C152_steps_partial _ shipped_flat).1 input, ?_⟩
  · have := (C151_nesting_partial Shipped.grammar).2 shipped_flat input
    rwa [shipped_depth] at this
  · rintro k ⟨n, _, rfl⟩
    have := (steps_le shipped_flat input n).2
    rw [shipped_depth, shipped_width] at this
    refine Nat.le_trans this ?_
    rw [factor, Nat.mul_pow, ← Nat.pow_mul (input.length + 1)]
    exact Nat.le_refl _

example : NestsWithin Shipped.grammar [64, 97, 59] 12 ∧ ∃ k, Takes Shipped.grammar [64, 97, 59] k :=
  ⟨(C153_shipped_bounds [64, 97, 59]).1, (C153_shipped_bounds [64, 97, 59]).2.1⟩

end Rodkina.Props
