import Verif.Lemmas.Ls
import Verif.Props.C31

/-!
# C43 - ls lists every entry once
-/

namespace Backpak.C43

open Spec

variable {Id : Type} [LinearOrder Id] {C : Codec Id} {ids : Ids Id} {R : Repo Id} {src : Source Id}

/-- Listing any snapshot of a repository in good order succeeds; the lines are the paths in the
snapshot, each with a node that says what is there; and they are in ascending order of paths, so
that none is repeated. -/
theorem lists (hH : Healthy C ids R) (ho : Opens R src) {i : Id} {s : Snapshot Id} (hs : (i, s) ∈ R.snapshots) :
    ∃ L d, ls C src s = .ok L ∧ Holds C R s.tree d ∧
      (∀ p x, (p, x) ∈ L → ∃ e, entry d p = some e ∧ NodeIs (FileHolds C R) x e) ∧
      (∀ p e, entry d p = some e → ∃ x, (p, x) ∈ L ∧ NodeIs (FileHolds C R) x e) ∧
      L.Pairwise (fun a b => a.1 < b.1) := by
  obtain ⟨d, hd⟩ := hH.readable i s hs
  obtain ⟨F, cache, h1, hF⟩ := load hH.sound ho hd
  obtain ⟨L, h2, h3⟩ := walkTree_ok hF.sorted (F.length + 1) [] s.tree hF.tall
  refine ⟨L, d, by simp only [ls, h1, h2], hd, ?_, ?_, h3.sorted⟩
  · intro p x hx
    obtain ⟨q, hp, hq⟩ := (h3.mem p x).mp hx
    rw [List.nil_append] at hp
    subst hp
    rcases hF.entry_rel p with ⟨h4, _⟩ | ⟨y, e, h4, h5, h6⟩
    · rw [hq] at h4; cases h4
    · rw [hq] at h4; cases h4
      exact ⟨e, h5, h6⟩
  · intro p e he
    rcases hF.entry_rel p with ⟨_, h4⟩ | ⟨x, e', h4, h5, h6⟩
    · rw [he] at h4; cases h4
    · rw [he] at h5; cases h5
      exact ⟨x, (h3.mem p x).mpr ⟨p, rfl, h4⟩, h6⟩

/-- In ascending order of paths, a directory comes before everything in it. -/
theorem parent_first (p q : Path) (h : q ≠ []) : p < p ++ q := path_lt_of_prefix h

/-- In ascending order of paths, everything at or below a name comes before everything at or below
a later name in the same directory. -/
theorem siblings_in_order (p q q' : Path) (n m : Name) (h : n < m) : p ++ n :: q < p ++ m :: q' :=
  append_lt_append.mpr (cons_lt_of_lt h)

/-- A snapshot with two directories and five files. -/
example : Healthy Demo.codec C31.ids1 (C31.repoF Demo.junk) ∧
    Opens (C31.repoF Demo.junk) (Check.opened (C31.repoF Demo.junk)) ∧
    ((C31.targetF Demo.junk).2, (C31.targetF Demo.junk).1) ∈ (C31.repoF Demo.junk).snapshots :=
  ⟨C31.healthyJ, Check.opened_opens C31.healthyJ, C31.targetJ⟩

theorem example_lines : (ls Demo.codec (Check.opened (C31.repoF Demo.junk)) (C31.snapF Demo.junk)).toOption.map
    (fun L => L.map Prod.fst) =
    some [[[97]], [[97], [120]], [[97], [121]], [[98]], [[98], [98]], [[99]]] := by decide +kernel

end Backpak.C43
