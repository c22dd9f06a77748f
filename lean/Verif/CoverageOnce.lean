import Verif.CoverageLemmas
import Verif.AstLemmas2

/-!
# No token is tested twice
-/

namespace Rodkina.Ast

/-- The names recorded are new, pairwise different, and remembered. -/
structure Fresh (skip : List String) (r : List Coverage × List String) : Prop where
  nodup : (r.1.map (fun c => c.token.name)).Nodup
  new : ∀ c ∈ r.1, c.token.name ∉ skip
  kept : ∀ c ∈ r.1, c.token.name ∈ r.2
  grows : ∀ x ∈ skip, x ∈ r.2

theorem Fresh.nil (skip : List String) : Fresh skip ([], skip) :=
  ⟨by simp, by simp, by simp, fun _ h => h⟩

theorem Fresh.append {s : List String} {a b : List Coverage × List String} (ha : Fresh s a)
    (hb : Fresh a.2 b) : Fresh s (a.1 ++ b.1, b.2) := by
  refine ⟨?_, ?_, ?_, fun x h => hb.grows x (ha.grows x h)⟩
  · rw [List.map_append, List.nodup_append]
    refine ⟨ha.nodup, hb.nodup, ?_⟩
    intro x hx y hy hxy
    obtain ⟨c, hc, rfl⟩ := List.mem_map.1 hx
    obtain ⟨d, hd, rfl⟩ := List.mem_map.1 hy
    exact hb.new d hd (hxy ▸ ha.kept c hc)
  · intro c hc h
    rcases List.mem_append.1 hc with h1 | h1
    · exact ha.new c h1 h
    · exact hb.new c h1 (ha.grows _ h)
  · intro c hc
    rcases List.mem_append.1 hc with h1 | h1
    · exact hb.grows _ (ha.kept c h1)
    · exact hb.kept c h1

/-- No external grammars. -/
abbrev noExternal : GLine → Prop := lineAllowed ⟨True, False⟩

mutual
theorem fresh_token (n : Nat) (chs : List Channel) : ∀ (t : Token), t.All noExternal → ∀ skip r,
    coveragesToken n chs t skip = .ok r → Fresh skip r
  | .mk name lines suites => by
    intro ha skip r h
    rw [Token.All] at ha
    rw [coveragesToken] at h
    split at h
    · cases h; exact Fresh.nil skip
    · next hs =>
      rw [out_bind, andThen_ok] at h
      obtain ⟨es, -, h⟩ := h
      rw [out_bind, andThen_ok] at h
      obtain ⟨r', hr', h⟩ := h
      cases h
      have hf := fresh_lines n chs lines ha (name :: skip) r' hr'
      unfold addCoverage
      have hg : ∀ x ∈ skip, x ∈ r'.2 := fun x hx => hf.grows x (List.mem_cons_of_mem _ hx)
      have hnew : ∀ c ∈ r'.1, c.token.name ∉ skip := fun c hc hx => hf.new c hc (List.mem_cons_of_mem _ hx)
      split
      · exact ⟨hf.nodup, hnew, hf.kept, hg⟩
      · refine ⟨?_, ?_, ?_, hg⟩
        · rw [List.map_append, List.nodup_append]
          refine ⟨hf.nodup, by simp, ?_⟩
          intro x hx y hy hxy
          obtain ⟨c, hc, rfl⟩ := List.mem_map.1 hx
          simp only [List.map_cons, List.map_nil, List.mem_singleton, Token.name] at hy
          exact hf.new c hc (by rw [hxy, hy]; exact List.mem_cons_self ..)
        · intro c hc
          rcases List.mem_append.1 hc with h1 | h1
          · exact hnew c h1
          · rw [List.mem_singleton] at h1
            subst h1
            exact hs
        · intro c hc
          rcases List.mem_append.1 hc with h1 | h1
          · exact hf.kept c h1
          · rw [List.mem_singleton] at h1
            subst h1
            exact hf.grows _ (List.mem_cons_self ..)
termination_by t => (sizeOf t, 0)
decreasing_by all_goals simp_wf; (try omega)

theorem fresh_lines (n : Nat) (chs : List Channel) : ∀ (ls : List GLine), linesAll noExternal ls → ∀ skip r,
    coveragesLines n chs ls skip = .ok r → Fresh skip r
  | [] => by
    intro _ skip r h
    rw [coveragesLines] at h
    cases h
    exact Fresh.nil skip
  | .mk cs :: ls => by
    intro ha skip r h
    rw [linesAll, GLine.All] at ha
    rw [coveragesLines, out_bind, andThen_ok] at h
    obtain ⟨a, h1, h⟩ := h
    rw [out_bind, andThen_ok] at h
    obtain ⟨b, h2, h⟩ := h
    cases h
    exact (fresh_containers n chs cs ha.1.1 ha.1.2 skip a h1).append (fresh_lines n chs ls ha.2 a.2 b h2)
termination_by ls => (sizeOf ls, 0)
decreasing_by all_goals simp_wf; (try omega)

theorem fresh_containers (n : Nat) (chs : List Channel) : ∀ (cs : List Container),
    noExternal (.mk cs) → containersAll noExternal cs → ∀ skip r,
    coveragesContainers n chs cs skip = .ok r → Fresh skip r
  | [] => by
    intro _ _ skip r h
    rw [coveragesContainers] at h
    cases h
    exact Fresh.nil skip
  | .compose _ :: cs => by
    intro hl ha skip r h
    rw [containersAll] at ha
    rw [coveragesContainers] at h
    exact fresh_containers n chs cs (fun c hc => hl c (List.mem_cons_of_mem _ hc)) ha.2 skip r h
  | .element min max c :: cs => by
    intro hl ha skip r h
    rw [containersAll, Container.All] at ha
    rw [coveragesContainers, out_bind, andThen_ok] at h
    obtain ⟨a, h1, h⟩ := h
    rw [out_bind, andThen_ok] at h
    obtain ⟨b, h2, h⟩ := h
    cases h
    exact (fresh_content n chs c min max (hl _ (List.mem_cons_self ..)) ha.1 skip a h1).append
      (fresh_containers n chs cs (fun c hc => hl c (List.mem_cons_of_mem _ hc)) ha.2 a.2 b h2)
termination_by cs => (sizeOf cs, 0)
decreasing_by all_goals simp_wf; (try omega)

theorem fresh_content (n : Nat) (chs : List Channel) : ∀ (c : Content) (min : Nat) (max : Option Nat),
    containerAllowed ⟨True, False⟩ (.element min max c) → c.All noExternal → ∀ skip r,
    coveragesContent n chs c skip = .ok r → Fresh skip r
  | .external _ _, _, _ => by
    intro hc
    exact absurd hc (by simp [containerAllowed])
  | .token t, _, _ => by
    intro _ ha skip r h
    rw [Content.All] at ha
    rw [coveragesContent] at h
    exact fresh_token n chs t ha skip r h
  | .everything _ ex none, _, _ => by
    intro _ ha skip r h
    rw [Content.All] at ha
    rw [coveragesContent, out_bind, andThen_ok] at h
    obtain ⟨a, h1, h⟩ := h
    rw [coveragesOption, out_bind, andThen_ok] at h
    obtain ⟨b, h2, h⟩ := h
    cases h2
    cases h
    exact (fresh_token n chs ex ha skip a h1).append (Fresh.nil a.2)
  | .everything _ ex (some esc), _, _ => by
    intro _ ha skip r h
    rw [Content.All] at ha
    rw [coveragesContent, out_bind, andThen_ok] at h
    obtain ⟨a, h1, h⟩ := h
    rw [coveragesOption, out_bind, andThen_ok] at h
    obtain ⟨b, h2, h⟩ := h
    cases h
    exact (fresh_token n chs ex ha.1 skip a h1).append (fresh_token n chs esc ha.2 a.2 b h2)
  | .value _ _, _, _ => by
    intro _ _ skip r h
    rw [coveragesContent] at h
    cases h
    exact Fresh.nil skip
  | .recursive _, _, _ => by
    intro _ _ skip r h
    rw [coveragesContent] at h
    cases h
    exact Fresh.nil skip
termination_by c => (sizeOf c, 0)
decreasing_by all_goals simp_wf; (try omega)
end

theorem fresh_channels (n : Nat) : ∀ (cs : List Channel), channelsAll noExternal cs → ∀ skip r,
    coveragesChannels n cs skip = .ok r → Fresh skip r
  | [] => by
    intro _ skip r h
    rw [coveragesChannels] at h
    cases h
    exact Fresh.nil skip
  | .mk t p q :: cs => by
    intro ha skip r h
    rw [channelsAll, Channel.All_iff] at ha
    rw [coveragesChannels, out_bind, andThen_ok] at h
    obtain ⟨a, h1, h⟩ := h
    rw [out_bind, andThen_ok] at h
    obtain ⟨b, h2, h⟩ := h
    cases h
    exact (fresh_token n [] t ha.1.1 skip a h1).append (fresh_channels n cs ha.2 a.2 b h2)

theorem coverages_nodup (n : Nat) (g : Grammar) (hg : g.All noExternal) (cs : List Coverage)
    (h : coverages n g = .ok cs) : (cs.map (fun c => c.token.name)).Nodup := by
  cases g with
  | mk root chs =>
    rw [Grammar.All] at hg
    rw [coverages, out_bind, andThen_ok] at h
    obtain ⟨a, h1, h⟩ := h
    rw [out_bind, andThen_ok] at h
    obtain ⟨b, h2, h⟩ := h
    cases h
    have := ((fresh_token n chs root hg.1 [] a h1).append (fresh_channels n chs hg.2 a.2 b h2)).nodup
    rw [List.map_append] at this ⊢
    exact (List.perm_append_comm.nodup_iff).1 this

end Rodkina.Ast
