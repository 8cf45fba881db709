import Verif.Props.C39
import Verif.Props.C56

/-!
# C101: Restoring to paths that are gone

The claim, that a restore brings back what was deleted, is false of the code for the paths of the snapshot
themselves: without `--output`, `restore` looks at all of them first and fails if one is not there. Whatever is
there does, an empty directory for one.
-/

namespace Backpak.C101

open Spec

variable {Id : Type} [LinearOrder Id] {C : Codec Id} {R : Repo Id} {src : Source Id} {cut : Bytes → Nat} {look : Look}
  {dangling : Path → Bool} {args : RestoreArgs} {s : Snapshot Id} {d2 : Dir Bytes} {cenv : CacheEnv Id} {env : FsEnv}

theorem gather_ok (l : List Path) {d : Dir Bytes} (h : gather look l = .ok d) :
    ∀ p ∈ l, fileName p ≠ none ∧ look p ≠ none := by
  induction l generalizing d with
  | nil => simp
  | cons p l ih =>
    rw [gather] at h
    split at h
    · cases h
    · rename_i n hn
      split at h
      · cases h
      · rename_i e sub hl
        split at h
        · cases h
        · rename_i d' hd
          intro q hq
          rcases List.mem_cons.mp hq with rfl | hq
          · exact ⟨by rw [hn]; simp, by rw [hl]; simp⟩
          · exact ih hd q hq

theorem gather_missing (l : List Path) (hn : ∀ p ∈ l, fileName p ≠ none) {p : Path} (hp : p ∈ l) (h : look p = none) :
    gather look l = .error (.err "Couldn't read metadata") := by
  induction l with
  | nil => cases hp
  | cons q l ih =>
    rw [gather]
    cases hq : fileName q with
    | none => exact absurd hq (hn q (by simp))
    | some n =>
      dsimp only
      cases hl : look q with
      | none => rfl
      | some e =>
        dsimp only
        rcases List.mem_cons.mp hp with rfl | hp
        · rw [h] at hl
          cases hl
        · rw [ih (fun x hx => hn x (List.mem_cons_of_mem _ hx)) hp]

theorem placesOf_ok (place : Path → Name → Path) (l : List Path) {m m' : BMap Name Path}
    (hm : BMap.Sorted m) (h : placesOf place l m = .ok m') :
    (∀ p ∈ l, fileName p ≠ none) ∧ (l.map lastName).Nodup ∧ ∀ p ∈ l, BMap.get? m (lastName p) = none := by
  induction l generalizing m with
  | nil => simp
  | cons p l ih =>
    rw [placesOf] at h
    split at h
    · cases h
    · rename_i n hn
      split at h
      · cases h
      · rename_i hs
        have hln : lastName p = n := by
          unfold fileName at hn
          unfold lastName
          split at hn
          · cases hn
          · rename_i x hx
            split at hn
            · cases hn
            · cases hn
              rw [hx]
              rfl
        have hns : BMap.get? m n = none := by
          cases hg : BMap.get? m n with
          | none => rfl
          | some y => rw [hg] at hs; simp at hs
        obtain ⟨h1, h2, h3⟩ := ih (BMap.sorted_insert hm _ _) h
        have h4 : ∀ q ∈ l, lastName q ≠ n ∧ BMap.get? m (lastName q) = none := by
          intro q hq
          have := h3 q hq
          have he : BMap.get? (BMap.insert n (place p n) m) (lastName q) =
              if n = lastName q then some (place p n) else BMap.get? m (lastName q) := by
            convert BMap.get?_insert hm n (lastName q) (place p n)
          rw [he] at this
          split at this
          · cases this
          · rename_i hne
            exact ⟨fun hc => hne hc.symm, this⟩
        refine ⟨?_, ?_, ?_⟩
        · intro q hq
          rcases List.mem_cons.mp hq with rfl | hq
          · rw [hn]; simp
          · exact h1 q hq
        · rw [List.map_cons, List.nodup_cons]
          refine ⟨fun hmem => ?_, h2⟩
          obtain ⟨q, hq, he⟩ := List.mem_map.mp hmem
          exact (h4 q hq).1 (he.trans hln)
        · intro q hq
          rcases List.mem_cons.mp hq with rfl | hq
          · rw [hln]; exact hns
          · exact (h4 q hq).2

/-- A restore that does anything at all has found something at each place it needs: at every path of the snapshot
if it restores in place, and at the output if the snapshot has one path. The last components of the paths are
different. -/
theorem needs {r : Restored Id} (h : restore C src cut look dangling args s = .ok r) :
    (∀ p ∈ s.paths, fileName p ≠ none) ∧ (s.paths.map lastName).Nodup ∧
    (args.output = none → ∀ p ∈ s.paths, look p ≠ none) ∧
    ∀ dst p, args.output = some dst → s.paths = [p] → look dst ≠ none ∧ fileName dst ≠ none := by
  unfold restore at h
  split at h
  · cases h
  · split at h
    · cases h
    · rename_i tgt ht
      clear h
      unfold loadTarget at ht
      dsimp only at ht
      split at ht
      · rename_i dst hout
        split at ht
        · rename_i p hp
          split at ht
          · cases ht
          · rename_i n hn
            split at ht
            · cases ht
            · rename_i e he
              split at ht
              · cases ht
              · split at ht
                · cases ht
                · rename_i m hm
                  rw [hp]
                  refine ⟨?_, by simp, ?_, ?_⟩
                  · intro q hq
                    rw [List.mem_singleton.mp hq, hn]
                    simp
                  · intro hc
                    rw [hout] at hc
                    cases hc
                  · intro dst' p' h1 _
                    rw [hout] at h1
                    cases h1
                    exact ⟨by rw [he]; simp, by rw [hm]; simp⟩
        · rename_i hns
          split at ht
          · cases ht
          · rename_i places hpl
            obtain ⟨h1, h2, _⟩ := placesOf_ok _ _ (by simp [BMap.Sorted, BMap.keys]) hpl
            refine ⟨h1, h2, ?_, ?_⟩
            · intro hc
              rw [hout] at hc
              cases hc
            · intro dst' p' _ h4
              exact absurd h4 (hns p')
      · rename_i hout
        split at ht
        · cases ht
        · rename_i id F hw
          split at ht
          · cases ht
          · rename_i places hpl
            obtain ⟨h1, h2, _⟩ := placesOf_ok _ _ (by simp [BMap.Sorted, BMap.keys]) hpl
            split at hw
            · cases hw
            · rename_i d hg
              refine ⟨h1, h2, fun _ p hp => (gather_ok _ hg p hp).2, ?_⟩
              intro dst' p' h3 _
              rw [hout] at h3
              cases h3

/-- From a repository in good order: if one path of the snapshot is not there, restoring in place fails before
it has changed anything, whatever else there is. -/
theorem missing_fails (hS : Sound C R) (ho : Opens R src) (hh : Holds C R s.tree d2)
    (hn : ∀ p ∈ s.paths, fileName p ≠ none) (hout : args.output = none) {p : Path} (hp : p ∈ s.paths)
    (hm : look p = none) :
    restore C src cut look dangling args s = .error (.err "Couldn't read metadata") := by
  obtain ⟨F, cache, hF, _⟩ := load hS ho hh
  unfold restore
  rw [hF]
  dsimp only
  unfold loadTarget
  rw [hout]
  dsimp only
  rw [gather_missing _ hn hp hm]

/-- Nor is the directory made that is given with `--output` for a snapshot of one path. -/
theorem output_missing_fails (hS : Sound C R) (ho : Opens R src) (hh : Holds C R s.tree d2) {p dst : Path}
    (hp : s.paths = [p]) (hn : fileName p ≠ none) (hout : args.output = some dst) (hm : look dst = none) :
    restore C src cut look dangling args s = .error (.err "Couldn't canonicalize") := by
  obtain ⟨F, cache, hF, _⟩ := load hS ho hh
  unfold restore
  rw [hF]
  dsimp only
  unfold loadTarget
  rw [hout, hp]
  dsimp only
  cases hf : fileName p with
  | none => exact absurd hf hn
  | some n =>
    dsimp only
    rw [hm]

/-- Where everything else is as it should be, something at each path is all that is missing: with it, a restore in
place with `--delete` brings back everything; without it, it fails. -/
theorem works_iff (he : C33.EnvOk cenv) (hS : Sound C R) (ho : Opens R src) {d : Disk Id}
    (hr : d.reader = ReaderState.new)
    (h : (∀ p ∈ s.paths, look p ≠ none) → RestoreOk C R cut look dangling args s d2 d.fs)
    (hout : args.output = none) (hw : args.dryRun = false) (hd : args.delete = true) :
    (∃ ops lines d', restore C src cut look dangling args s = .ok (ops, lines) ∧
      calls C.hash src cenv env ops d = (d', none) ∧ d'.elsewhere = d.elsewhere ∧
      ∀ p ∈ s.paths, ∀ q, (d'.fs (p ++ q)).map Obj.item = (entry d2 (lastName p :: q)).map (fun e => itemOf e.2)) ↔
    ∀ p ∈ s.paths, look p ≠ none := by
  constructor
  · rintro ⟨ops, lines, d', h1, _⟩
    exact (needs h1).2.2.1 hout
  · intro hl
    obtain ⟨ops, lines, d', h1, h2, h3, h4⟩ := C39.reproduces (env := env) he hS ho hr (h hl) hw hd
    refine ⟨ops, lines, d', h1, h2, h3, fun p hp q => ?_⟩
    have := h4 p hp q
    unfold dest at this
    rw [hout] at this
    exact this

/-- The snapshot of `/h` that `C39` restores: if `/h` is gone, so is the restore. -/
example : restore Demo.codec (Check.opened Demo.repoH) Demo.cut (fun _ => none) (fun _ => false)
    (Demo.argsH true) Demo.snapH = .error (.err "Couldn't read metadata") :=
  missing_fails Demo.healthyH.sound (Check.opened_opens Demo.healthyH) (Demo.restoreOkH true).holds
    (Demo.restoreOkH true).named rfl (p := [[], [104]]) (by simp [Demo.snapH]) rfl

/-- It is brought back if there is something, here a directory with other things in it. -/
example : ∃ ops lines d', restore Demo.codec (Check.opened Demo.repoH) Demo.cut Demo.lookH (fun _ => false)
      (Demo.argsH true) Demo.snapH = .ok (ops, lines) ∧
    calls Demo.codec.hash (Check.opened Demo.repoH) Demo.env ⟨fun n => n, 0o644, 0o755, 0o777⟩ ops
      ⟨Demo.fsH, 0, ReaderState.new, []⟩ = (d', none) ∧
    (d'.fs [[], [104], [97]]).map Obj.item = some (.file [1, 2, 3]) := by
  obtain ⟨ops, lines, d', h1, h2, _, h4⟩ := (works_iff (env := ⟨fun n => n, 0o644, 0o755, 0o777⟩) Demo.env_ok
    Demo.healthyH.sound (Check.opened_opens Demo.healthyH) (d := ⟨Demo.fsH, 0, ReaderState.new, []⟩) rfl
    (fun _ => Demo.restoreOkH true) rfl rfl rfl).mpr ((Demo.restoreOkH true).present rfl)
  exact ⟨ops, lines, d', h1, h2, h4 [[], [104]] (by simp [Demo.snapH]) [[97]]⟩

end Backpak.C101
