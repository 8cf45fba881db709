import Verif.Lemmas.Run
import Verif.Props.C16

/-!
# A live run that adds to a repository can finish
-/

namespace Backpak

open Spec Pipeline

variable {Id : Type} [LinearOrder Id] {C : Codec Id} {ids : Ids Id} {cores : Nat} {w : World Id}
  {start : Index Id} {here : List Id} {ss : List (Blob Id)}

theorem here_nodup (hw : BMap.Sorted w.cwd.packs) (hres : resumeFrom w = .ok (start, here)) :
    here.Nodup := by
  unfold resumeFrom findResumable at hres
  cases hx : w.cwd.wip with
  | none => rw [hx] at hres; cases hres; exact .nil
  | some x =>
    rw [hx] at hres
    simp only at hres
    split at hres
    · cases hres
      exact hw.nodup.filter _
    · cases hres

theorem add_given (hH : Healthy C ids w.repo) (hL : Leftover C ids w) (hw : BMap.Sorted w.cwd.packs)
    (hres : resumeFrom w = .ok (start, here)) (hf : Fresh C (Counts w) ss)
    (hinj : PacksDiffer ids w (mainOf here ss)) :
    C16.Given ⟨ids, true, cores, start, Involved w (mainOf here ss)⟩ w here ss := by
  have hr := runOk_add (cores := cores) hH.sound hH.pack_names hL hres hf hinj
  refine ⟨hr.world, here_nodup hw hres, ?_, hr.startSort, hf.ne, hf.nodup.of_map _, ?_,
    fun cur hc => .inr (.inr hc), hinj⟩
  · rcases resumeFrom_ok hres with ⟨_, _, rfl⟩ | ⟨_, h2, _⟩
    · simp
    · exact h2
  · intro p m hm
    obtain ⟨bs, hg, rfl⟩ := hr.startGood p m hm
    refine ⟨bs, hg, rfl, fun b hb hbs => ?_⟩
    exact hf.new b hb p bs (before_counts hH.pack_names hL hres hinj (.inr ⟨hm, hg⟩)) b hbs rfl

/-- With four cores or more such a run, from wherever it has got to and however it goes on,
finishes. -/
theorem add_finishes (hcores : 4 ≤ cores) (hH : Healthy C ids w.repo) (hL : Leftover C ids w)
    (hw : BMap.Sorted w.cwd.packs) (hres : resumeFrom w = .ok (start, here))
    (hf : Fresh C (Counts w) ss) (hinj : PacksDiffer ids w (mainOf here ss))
    {s : State Id} (h : Reachable (liveCfg ids cores start) w (mainOf here ss) s) :
    ∃ t, Relation.ReflTransGen (Step (liveCfg ids cores start)) s t ∧ t.joined = true := by
  have h' : Reachable ⟨ids, true, cores, start, Involved w (mainOf here ss)⟩ w (mainOf here ss) s :=
    reachable_allowed (c := liveCfg ids cores start)
      (c' := ⟨ids, true, cores, start, Involved w (mainOf here ss)⟩)
      rfl rfl rfl rfl (fun cur hc => .inr (.inr hc)) h
  obtain ⟨⟨t, ht, hj⟩, _⟩ := C16.finishes_partial _ w here ss s hcores
    (add_given hH hL hw hres hf hinj) h'
  refine ⟨t, ?_, hj⟩
  clear hj
  induction ht with
  | refl => exact .refl
  | tail _ hs ih => exact ih.tail (step_allowed hs)

end Backpak
