import Verif.Lemmas.RestoreTop
import Verif.Lemmas.RestoreCompare
import Mathlib.Data.List.Pairwise

/-!
# A whole restore
-/

namespace Backpak

open Spec

variable {Id : Type} [LinearOrder Id] {C : Codec Id} {R : Repo Id} {cut : Bytes → Nat} {look : Look}
  {dangling : Path → Bool} {args : RestoreArgs} {s : Snapshot Id} {d2 : Dir Bytes} {fs : Fs} {F2 : Forest Id}

/-- What a restore compares with, and where things go. -/
structure Ready (C : Codec Id) (R : Repo Id) (cut : Bytes → Nat) (look : Look) (args : RestoreArgs) (s : Snapshot Id)
    (tgt : Target Id) : Prop where
  grown : Grown C (InvolvedTree C R cut (now args s look) (underOwnName args s look)) tgt.forest
  held : ∃ t d, tgt.forest.get? tgt.root = some t ∧ HeldIn (KnownFile C R cut (now args s look)) tgt.forest t d ∧
    ∀ n, child d n = child (now args s look) n
  places : ∀ p ∈ s.paths, tgt.places.get? (lastName p) = some (dest args s p)

section
variable (hS : Sound C R) (h : RestoreBut C R cut look dangling args s d2 fs) (hF : Loaded C R F2 s.tree d2)
include hS h hF

theorem now_names : (now args s look).names.Nodup := by
  refine List.Nodup.sublist (names_listing _) ?_
  rw [List.map_map]
  exact h.distinct

theorem now_few : (now args s look).names.length < 2 ^ 64 := by
  refine lt_of_le_of_lt (names_listing _).length_le ?_
  rw [List.length_map, List.length_map]
  exact h.few

theorem load_inPlace (ho : args.output = none) :
    ∃ tgt, loadTarget C cut look dangling args.output s F2 = .ok tgt ∧ Ready C R cut look args s tgt := by
  have hdest : ∀ p, dest args s p = p := by intro p; simp [dest, ho]
  have hnow : now args s look = listing (s.paths.map (fun p => (lastName p, look p))) := by
    unfold now; simp only [hdest]
  obtain ⟨t, f, k1, k2, k3, k4, k5⟩ := target_walk hS h hF (fun n => [n]) h.plain h.kinds1 h.sorted h.fits (now_few hS h hF)
    (now_names hS h hF) h.faithful (fun _ h => h) (fun _ h => h) (.inl fun _ => rfl)
  obtain ⟨places, p1, p2, _, p4⟩ := placesOf_ok (place := fun p _ => p) s.paths [] (by simp [BMap.Sorted, BMap.keys]) h.named h.distinct
    (by simp [BMap.keys])
  refine ⟨⟨C.hash (C.encTree t), f, places⟩, ?_, ⟨k3, ⟨t, _, k4, k5, fun n => child_arrange (now_names hS h hF) n⟩, ?_⟩⟩
  · unfold loadTarget
    rw [ho]
    dsimp only
    rw [gather_ok _ (fun p hp => ⟨h.named p hp, h.present ho p hp⟩), ← hnow]
    dsimp only
    rw [k1, p1]
  · intro p hp
    rw [hdest]
    exact BMap.get?_of_mem_nodup (sorted_nodup p2) (p4 p hp)

theorem load_one {dst p : Path} (ho : args.output = some dst) (hp : s.paths = [p]) :
    ∃ tgt, loadTarget C cut look dangling args.output s F2 = .ok tgt ∧ Ready C R cut look args s tgt := by
  obtain ⟨h1, h2, h3⟩ := h.single dst p ho hp
  have hdest : ∀ q, dest args s q = dst := by intro q; simp [dest, ho, hp]
  have hnow : now args s look = single (lastName p) (look dst) .nil := by
    unfold now; rw [hp, List.map_singleton, hdest, listing_one]
  have hown : underOwnName args s look = [single (lastName dst) (look dst) .nil] := by
    unfold underOwnName; rw [ho, hp]
  have hname : fileName p ≠ none := h.named p (by simp [hp])
  have hlen : (lastName p).length < 2 ^ 64 := fits_name h1 (hnow ▸ h.fits)
  have hnod : (single (lastName dst) (look dst) .nil).names.Nodup ∧ (single (lastName dst) (look dst) .nil).names.length < 2 ^ 64 := by
    cases hl : look dst with
    | none => exact absurd hl h1
    | some e =>
      obtain ⟨⟨md, l⟩, sub⟩ := e
      cases l <;> exact ⟨by simp [single, Dir.names], by simp [single, Dir.names]⟩
  obtain ⟨t, f, k1, k2, k3, k4, k5⟩ := target_walk hS h hF (d := single (lastName dst) (look dst) .nil) (fun n => [n])
    (plain_single.mp (hnow ▸ h.plain)) (kinds_single.mp (hnow ▸ h.kinds1)) (subs_single.mp (hnow ▸ h.sorted))
    (fits_single h3 (hnow ▸ h.fits)) hnod.2 hnod.1
    (by
      by_cases he : lastName dst = lastName p
      · rw [he, ← hnow]; exact h.faithful
      · refine faithful_fresh (fun hm => he ?_) _
        obtain ⟨q, hq, e⟩ := h.tops _ hm
        rw [hp] at hq
        rw [← e, List.mem_singleton.mp hq])
    (fun x hx => by rw [hnow]; exact hasFile_single.mp hx) (fun x hx => by rw [hnow]; exact subDir_single.mp hx)
    (.inr (by rw [arrange_single, hown]; simp))
  rw [arrange_single] at k5
  have hsrt : (single (lastName p) (look dst) .nil).Sorted := by
    have := sorted_arrange (hnow ▸ h.sorted : SubsSorted (single (lastName p) (look dst) .nil))
    rwa [arrange_single] at this
  obtain ⟨t', f', r1, r2, r3, r4⟩ := rename_ok (M := InvolvedTree C R cut (now args s look) (underOwnName args s look)) h.trees h1 k3 k4 k5 hlen
    (fun u hu hb => .inr ⟨_, .inr (.inl ⟨hsrt, fun n => by rw [hnow]⟩), hu, hb⟩)
  refine ⟨⟨C.hash (C.encTree t'), f', [(lastName p, dst)]⟩, ?_, ⟨r2, ⟨t', _, r3, r4, fun n => by rw [hnow]⟩, ?_⟩⟩
  · unfold loadTarget
    rw [ho, hp]
    dsimp only
    rw [fileName_some hname]
    dsimp only
    have hg := gather_ok (look := look) [dst] (fun q hq => by rw [List.mem_singleton.mp hq]; exact ⟨h2, h1⟩)
    rw [List.map_singleton, listing_one] at hg
    cases hl : look dst with
    | none => exact absurd hl h1
    | some e =>
      rw [← hl]
      simp only [hg, k1, fileName_some h2, r1]
      rw [hl]
  · intro q hq
    rw [hp] at hq
    rw [List.mem_singleton.mp hq, hdest]
    simp [BMap.get?]

theorem load_many {dst : Path} (ho : args.output = some dst) (hp : s.paths.length ≠ 1) :
    ∃ tgt, loadTarget C cut look dangling args.output s F2 = .ok tgt ∧ Ready C R cut look args s tgt := by
  have hdest : ∀ q, dest args s q = dst ++ [lastName q] := by
    intro q
    rcases hp' : s.paths with _ | ⟨a, _ | ⟨b, l⟩⟩
    · simp [dest, ho, hp']
    · rw [hp'] at hp; simp at hp
    · simp [dest, ho, hp']
  obtain ⟨places, p1, p2, _, p4⟩ := placesOf_ok (place := fun _ n => dst ++ [n]) s.paths [] (by simp [BMap.Sorted, BMap.keys]) h.named h.distinct
    (by simp [BMap.keys])
  let all := BSet.ofList ((s.paths.filterMap fileName).map (fun n => dst ++ [n]))
  let qs := all.filter (isThere look dangling)
  have hall : ∀ q, q ∈ all ↔ ∃ p ∈ s.paths, q = dst ++ [lastName p] := by
    intro q
    simp only [all, BSet.mem_ofList, List.mem_map, List.mem_filterMap]
    constructor
    · rintro ⟨n, ⟨p, hp, hn⟩, rfl⟩
      exact ⟨p, hp, by rw [(fileName_eq hn).1]⟩
    · rintro ⟨p, hp, rfl⟩
      exact ⟨lastName p, ⟨p, hp, fileName_some (h.named p hp)⟩, rfl⟩
  have hqs : ∀ q, q ∈ qs ↔ ∃ p ∈ s.paths, q = dst ++ [lastName p] ∧ look q ≠ none := by
    intro q
    simp only [qs, List.mem_filter, hall]
    constructor
    · rintro ⟨⟨p, hp, rfl⟩, ht⟩
      refine ⟨p, hp, rfl, fun e => ?_⟩
      simp [isThere, e] at ht
    · rintro ⟨p, hp', rfl, hl⟩
      refine ⟨⟨p, hp', rfl⟩, ?_⟩
      have hd := h.solid dst ho hp p hp'
      unfold isThere
      split
      · rename_i he; exact absurd he hl
      · simp [hd]
      · rfl
  have hqn : ∀ q ∈ qs, fileName q ≠ none ∧ look q ≠ none := by
    intro q hq
    obtain ⟨p, hp, rfl, hl⟩ := (hqs q).mp hq
    exact ⟨by rw [fileName_append (h.named p hp)]; simp, hl⟩
  let l' : List (Name × Option Ent2) := qs.map (fun p => (lastName p, look p))
  have hl'nd : (l'.map Prod.fst).Nodup := by
    simp only [l', List.map_map]
    refine List.Nodup.map_on ?_ ?_
    · intro a ha b hb hab
      obtain ⟨p, _, rfl, _⟩ := (hqs a).mp ha
      obtain ⟨p', _, rfl, _⟩ := (hqs b).mp hb
      simp only [Function.comp, lastName_append] at hab
      rw [hab]
    · refine List.Nodup.filter _ ?_
      exact (BSet.sorted_ofList _).imp (fun {a b} h e => by rw [e] at h; exact lt_irrefl _ h)
  have hmem1 : ∀ e ∈ l', e ∈ s.paths.map (fun p => (lastName p, look (dest args s p))) := by
    rintro e he
    obtain ⟨q, hq, rfl⟩ := List.mem_map.mp he
    obtain ⟨p, hp, rfl, _⟩ := (hqs q).mp hq
    exact List.mem_map.mpr ⟨p, hp, by rw [lastName_append, hdest]⟩
  have hmem2 : ∀ e ∈ s.paths.map (fun p => (lastName p, look (dest args s p))), e.2 ≠ none → e ∈ l' := by
    intro e he hne
    obtain ⟨p, hp, rfl⟩ := List.mem_map.mp he
    dsimp only at hne
    rw [hdest] at hne ⊢
    exact List.mem_map.mpr ⟨_, (hqs _).mpr ⟨p, hp, rfl, hne⟩, by rw [lastName_append]⟩
  have hnowl : now args s look = listing (s.paths.map (fun p => (lastName p, look (dest args s p)))) := rfl
  obtain ⟨t, f, k1, k2, k3, k4, k5⟩ := target_walk hS h hF (d := listing l') (fun n => [n])
    ((plain_listing _).mpr fun e he => (plain_listing _).mp (hnowl ▸ h.plain) e (hmem1 e he))
    ((kinds_listing _).mpr fun e he => (kinds_listing _).mp (hnowl ▸ h.kinds1) e (hmem1 e he))
    ((subs_listing _).mpr fun e he => (subs_listing _).mp (hnowl ▸ h.sorted) e (hmem1 e he))
    ((fits_listing _).mpr fun e he => (fits_listing _).mp (hnowl ▸ h.fits) e (hmem1 e he))
    (by
      refine lt_of_le_of_lt (names_listing _).length_le (lt_of_le_of_lt ?_ h.few)
      rw [← List.length_map (f := lastName) (as := s.paths)]
      refine (List.subperm_of_subset hl'nd ?_).length_le
      intro n hn
      obtain ⟨e, he, rfl⟩ := List.mem_map.mp hn
      obtain ⟨p, hp, rfl⟩ := List.mem_map.mp (hmem1 e he)
      exact List.mem_map.mpr ⟨p, hp, rfl⟩)
    (List.Nodup.sublist (names_listing _) hl'nd)
    ((faithful_listing _ _).mpr fun e he => (faithful_listing _ _).mp (hnowl ▸ h.faithful) e (hmem1 e he))
    (fun x hx => by
      obtain ⟨e, he, hx⟩ := (hasFile_listing _ _).mp hx
      rw [hnowl]
      exact (hasFile_listing _ _).mpr ⟨e, hmem1 e he, hx⟩)
    (fun x hx => by
      obtain ⟨e, he, hx⟩ := (subDir_listing _ _).mp hx
      rw [hnowl]
      exact (subDir_listing _ _).mpr ⟨e, hmem1 e he, hx⟩)
    (.inl (fun n => child_same (by rw [List.map_map]; exact h.distinct) hl'nd hmem1 hmem2 n))
  refine ⟨⟨C.hash (C.encTree t), f, places⟩, ?_, ⟨k3, ⟨t, _, k4, k5, fun n => ?_⟩, ?_⟩⟩
  · unfold loadTarget
    rw [ho]
    dsimp only
    split
    · rename_i he; rw [he] at hp; simp at hp
    · rw [p1]
      dsimp only
      have hg : gather look (List.filter (isThere look dangling)
          (BSet.ofList (List.map (fun n => dst ++ [n]) (List.filterMap fileName s.paths)))) = .ok (listing l') :=
        gather_ok qs hqn
      rw [hg]
      dsimp only
      rw [k1]
  · rw [child_arrange (List.Nodup.sublist (names_listing _) hl'nd)]
    exact child_same (by rw [List.map_map]; exact h.distinct) hl'nd hmem1 hmem2 n
  · intro p hp'
    rw [hdest]
    exact BMap.get?_of_mem_nodup (sorted_nodup p2) (p4 p hp')

theorem load_target : ∃ tgt, loadTarget C cut look dangling args.output s F2 = .ok tgt ∧ Ready C R cut look args s tgt := by
  cases ho : args.output with
  | none => rw [← ho]; exact load_inPlace hS h hF ho
  | some dst =>
    rw [← ho]
    by_cases hp : s.paths.length = 1
    · obtain ⟨p, hp⟩ := List.length_eq_one_iff.mp hp
      exact load_one hS h hF ho hp
    · exact load_many hS h hF ho hp

end

theorem view_norm (o : Option Ent2) : view (norm o) = view o := by
  funext q
  rcases o with _ | ⟨⟨md, _ | lf⟩, sub⟩
  · rfl
  · rfl
  · cases q <;> rfl

theorem now_child (h : RestoreBut C R cut look dangling args s d2 fs) {p : Path} (hp : p ∈ s.paths) :
    view (child (now args s look) (lastName p)) = view (look (dest args s p)) := by
  rw [← view_norm (look (dest args s p))]
  unfold now
  rw [child_listing (by rw [List.map_map]; exact h.distinct) (List.mem_map.mpr ⟨p, hp, rfl⟩)]

/-- The path of the snapshot that has a name. -/
def pathOf (s : Snapshot Id) (n : Name) : Path := (s.paths.find? (fun p => lastName p = n)).getD []

theorem pathOf_eq (h : (s.paths.map lastName).Nodup) {p : Path} (hp : p ∈ s.paths) : pathOf s (lastName p) = p := by
  unfold pathOf
  cases hf : s.paths.find? (fun q => lastName q = lastName p) with
  | none =>
    have := List.find?_eq_none.mp hf p hp
    simp at this
  | some q =>
    have h1 := List.find?_some hf
    have h2 := List.mem_of_find?_eq_some hf
    exact List.inj_on_of_nodup_map h h2 hp (by simpa using h1)

theorem dest_apart (h : RestoreBut C R cut look dangling args s d2 fs) {p q : Path} (hp : p ∈ s.paths) (hq : q ∈ s.paths)
    (hne : lastName p ≠ lastName q) : Apart (dest args s p) (dest args s q) := by
  cases ho : args.output with
  | none =>
    simp only [dest, ho]
    have : Std.Symm Apart := ⟨fun _ _ h => h.symm⟩
    exact (h.apart ho).forall hp hq (fun e => hne (by rw [e]))
  | some dst =>
    rcases hp' : s.paths with _ | ⟨a, _ | ⟨b, l⟩⟩
    · rw [hp'] at hp; cases hp
    · rw [hp'] at hp hq
      rw [List.mem_singleton.mp hp, List.mem_singleton.mp hq] at hne
      exact absurd rfl hne
    · simp only [dest, ho, hp']
      exact apart_child hne

theorem meta_of {P : Meta → Prop} {PT : Id → Tree Id → Prop} {PF : List Id → Bytes → Prop} {t : Tree Id} {d : Dir Bytes}
    (h : DirRel PF PT t d) (hk : AllMeta P d) : ∀ e ∈ t, P e.2.md := by
  induction h with
  | nil => intro e he; cases he
  | file _ _ ih =>
    intro e he
    rcases List.mem_cons.mp he with rfl | he
    · exact hk.1
    · exact ih hk.2 e he
  | link _ ih =>
    intro e he
    rcases List.mem_cons.mp he with rfl | he
    · exact hk.1
    · exact ih hk.2 e he
  | dir _ _ _ _ ih =>
    intro e he
    rcases List.mem_cons.mp he with rfl | he
    · exact hk.1
    · exact ih hk.2.2 e he

/-- The bytes of chunks determine the bytes of a file. -/
theorem chunks_same (hS : Sound C R) {bs : List (Blob Id)} (hb : ∀ b ∈ bs, ∀ z, Has C R ⟨z, b.id, .chunk⟩ → z = b.data)
    {y : Bytes} (h : FileHolds C R (bs.map Blob.id) y) : (bs.map Blob.data).flatten = y := by
  induction bs generalizing y with
  | nil => cases h; rfl
  | cons b bs ih =>
    rw [List.map_cons] at h
    cases h with
    | cons h1 h2 =>
      rw [List.map_cons, List.flatten_cons, ih (fun b hb' => hb b (List.mem_cons_of_mem _ hb')) h2, hb b (by simp) _ h1]

theorem agree_but {X : RCtx Id} (h : RestoreBut X.C X.R cut look dangling X.args s d2 fs)
    {tgt : Target Id} (ht : Ready X.C X.R cut look X.args s tgt) (hF : Loaded X.C X.R F2 s.tree d2) : Agree tgt.forest F2 := by
  intro id t1 t2 h1 h2
  obtain ⟨g1, g2, g3, _⟩ := ht.grown.made id t1 (BMap.mem_of_get? h1)
  have h3 := ((hF.exact id t2).mp h2).2
  exact h.trees t1 t2 g3 (.inl ⟨id, h3⟩) (g1.symm.trans h3.2.1.symm)

theorem same_but {X : RCtx Id} (h : RestoreBut X.C X.R cut look dangling X.args s d2 fs) :
    ∀ cs x y, KnownFile X.C X.R cut (now X.args s look) cs x → FileHolds X.C X.R cs y → x = y := by
  rintro cs x y (⟨hx, rfl⟩ | ⟨hx, _⟩) hy
  · rw [← chunks_same X.hS (fun b hb z hz => h.chunks x hx b hb z hz) hy]
    exact (C10.chunks_concat X.C.hash cut h.contract x).symm
  · exact fileHolds_one X.hS hx hy

theorem pair_ok {X : RCtx Id} (h : RestoreOk X.C X.R cut look dangling X.args s d2 fs) (hw : X.args.dryRun = false)
    (hF : Loaded X.C X.R F2 s.tree d2) {tgt : Target Id} (ht : Ready X.C X.R cut look X.args s tgt) :
    Pair X tgt.forest F2 (KnownFile X.C X.R cut (now X.args s look)) := by
  have all : ∀ P : Meta → Prop, AllMeta P d2 → ∀ id t n y, F2.get? id = some t → (n, y) ∈ t → P y.md := by
    intro P hP id t n y hid hy
    obtain ⟨hr, hta⟩ := (hF.exact id t).mp hid
    obtain ⟨t0, h1, h2⟩ := h.holds
    obtain ⟨t', d', g1, g2, g3⟩ := Loaded.reached (T := TreeAt X.C X.R) (P := AllMeta P) (fun n md sub rest h => h.2)
      (fun n md l rest h => h.2) (fun _ _ _ a b => X.hS.treeAt_one a b) hr h1 h2 hP
    have := X.hS.treeAt_one hta g1
    subst this
    exact meta_of g2 g3 _ hy
  refine ⟨?_, hF.sorted, ?_, ?_, agree_but h.toRestoreBut ht hF, same_but h.toRestoreBut, hw⟩
  · intro id u hu
    exact (ht.grown.made id u (BMap.mem_of_get? hu)).2.1.sorted
  · intro id u hu n x hx
    exact (ht.grown.made id u (BMap.mem_of_get? hu)).2.2.2 (n, x) (BMap.mem_of_get? hx)
  · intro id t n y hid hy
    refine ⟨hF.nodesOk X.hS h.holds h.kinds2 id t hid n y (BMap.get?_of_mem_nodup (sorted_nodup (hF.sorted id t hid)) hy),
      fun hp => all _ (h.posix hp) id t n y hid hy, fun ht => all _ (h.datable ht) id t n y hid hy⟩

/-- What a restore leaves behind. -/
theorem restore_run (X : RCtx Id) (h : RestoreOk X.C X.R cut look dangling X.args s d2 fs) (hw : X.args.dryRun = false)
    {d : Disk Id} (hd : d.fs = fs) (hr : C33.Settled X.C X.R X.cenv d.reader) :
    ∃ ops lines d', restore X.C X.src cut look dangling X.args s = .ok (ops, lines) ∧
      calls X.C.hash X.src X.cenv X.env ops d = (d', none) ∧ d'.elsewhere = d.elsewhere ∧
      ∀ p ∈ s.paths, ∀ q, Ends X.args (view (look (dest X.args s p))) (fun r => entry d2 (lastName p :: r)) q
        (d.fs (dest X.args s p ++ q)) (d'.fs (dest X.args s p ++ q)) := by
  subst hd
  obtain ⟨F2, cache, l1, l2⟩ := load X.hS X.ho h.holds
  obtain ⟨tgt, t1, t2⟩ := load_target X.hS h.toRestoreBut l2
  obtain ⟨ta, d1, a1, a2, a3⟩ := t2.held
  obtain ⟨tb, b1, b2⟩ := l2.held
  have keys1 : ∀ n, n ∈ BMap.keys ta → ∃ p ∈ s.paths, lastName p = n := by
    intro n hn
    have : child (now X.args s look) n ≠ none := by
      rw [← a3]
      rcases child_rel a2 n with ⟨g1, _⟩ | ⟨x, e, _, g2, _⟩
      · exact absurd hn (BMap.get?_eq_none_iff.mp g1)
      · rw [g2]; simp
    rw [Ne, child_none, not_not] at this
    have := (names_listing _).subset this
    rw [List.map_map] at this
    obtain ⟨p, hp, e⟩ := List.mem_map.mp this
    exact ⟨p, hp, e⟩
  have keys2 : ∀ n, n ∈ BMap.keys tb → ∃ p ∈ s.paths, lastName p = n := by
    intro n hn
    refine h.tops n ?_
    rw [← not_not (a := n ∈ d2.names), ← child_none]
    rcases child_rel b2 n with ⟨g1, _⟩ | ⟨x, e, _, g2, _⟩
    · exact absurd hn (BMap.get?_eq_none_iff.mp g1)
    · rw [g2]; simp
  have keys : ∀ n, n ∈ BMap.keys ta ∨ n ∈ BMap.keys tb → ∃ p ∈ s.paths, lastName p = n :=
    fun n hn => hn.elim (keys1 n) (keys2 n)
  have hplc : ∀ p ∈ s.paths, dest X.args s (pathOf s (lastName p)) = dest X.args s p :=
    fun p hp => by rw [pathOf_eq h.distinct hp]
  obtain ⟨ops, lines, c1, c2⟩ := roots_good (pair_ok h hw l2 t2) (places := tgt.places)
    (plc := fun n => dest X.args s (pathOf s n)) a1 a2 b1 b2
    (by
      intro n hn
      obtain ⟨p, hp, rfl⟩ := keys n hn
      rw [hplc p hp]
      exact t2.places p hp)
    (by
      intro n m hn hm hne
      obtain ⟨p, hp, rfl⟩ := keys n hn
      obtain ⟨q, hq, rfl⟩ := keys m hm
      rw [hplc p hp, hplc q hq]
      exact dest_apart h.toRestoreBut hp hq hne)
  have hmem : ∀ n, n ∈ BSet.ofList (BMap.keys ta ++ BMap.keys tb) ↔ n ∈ BMap.keys ta ∨ n ∈ BMap.keys tb := by
    intro n; rw [BSet.mem_ofList, List.mem_append]
  have hview : ∀ p ∈ s.paths, (fun q => entry d1 (lastName p :: q)) = view (look (dest X.args s p)) := by
    intro p hp
    funext q
    rw [entry_cons, a3, now_child h.toRestoreBut hp]
  obtain ⟨d', r1, r2, r3, r4⟩ := c2 d hr (by
    intro n hn
    obtain ⟨p, hp, rfl⟩ := keys n ((hmem n).mp hn)
    beta_reduce
    rw [hplc p hp]
    refine ⟨h.enter p hp, fun q => ?_⟩
    have := congrFun (hview p hp) q
    rw [this]
    exact h.seen p hp q)
  refine ⟨ops, lines, d', ?_, r1, r2.2, ?_⟩
  · unfold restore
    rw [l1]
    dsimp only
    rw [t1]
    exact c1
  · intro p hp q
    by_cases hn : lastName p ∈ BMap.keys ta ∨ lastName p ∈ BMap.keys tb
    · have := r3 _ ((hmem _).mpr hn) q
      rw [hview p hp] at this
      beta_reduce at this
      rw [hplc p hp] at this
      exact this
    · have hne : ∀ n ∈ BSet.ofList (BMap.keys ta ++ BMap.keys tb), Apart (dest X.args s (pathOf s n)) (dest X.args s p) := by
        intro n hn'
        obtain ⟨p', hp', rfl⟩ := keys n ((hmem n).mp hn')
        rw [hplc p' hp']
        refine dest_apart h.toRestoreBut hp' hp (fun e => hn ?_)
        rw [← e]
        exact (hmem _).mp hn'
      have hsame := (r4 (dest X.args s p ++ q) (fun n hn' => (hne n hn').below)).2 (fun n hn' => (hne n hn').parent)
      rw [hsame]
      refine ends_of_shows ?_
      have h0 := h.seen p hp q
      rw [not_or] at hn
      have e1 : view (look (dest X.args s p)) q = none := by
        rw [← hview p hp]
        beta_reduce
        rw [entry_cons]
        rcases child_rel a2 (lastName p) with ⟨_, g2⟩ | ⟨x, e, g1, _⟩
        · rw [g2]; rfl
        · exact absurd (BMap.mem_keys_of_mem (BMap.mem_of_get? g1)) hn.1
      have e2 : entry d2 (lastName p :: q) = none := by
        rw [entry_cons]
        rcases child_rel b2 (lastName p) with ⟨_, g2⟩ | ⟨x, e, g1, _⟩
        · rw [g2]; rfl
        · exact absurd (BMap.mem_keys_of_mem (BMap.mem_of_get? g1)) hn.2
      rw [e1] at h0
      rw [e2]
      exact h0

end Backpak
