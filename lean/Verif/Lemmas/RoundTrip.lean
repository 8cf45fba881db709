import Verif.Spec.RoundTrip
import Verif.Lemmas.RestoreMain
import Verif.Lemmas.CheckRestore
import Verif.Props.C21

/-!
# Backing up and restoring: lemmas
-/

namespace Backpak

open Spec

/-! ## What a backup keeps -/

theorem meta_keep {P : Meta → Prop} (filter : Path → Bool) {d : Dir Bytes} (h : AllMeta P d) :
    ∀ pathOf : Name → Path, AllMeta P (keep filter pathOf d) := by
  induction d with
  | nil => intro _; trivial
  | leaf n md l r ih =>
    intro pathOf
    unfold keep
    split
    · exact ih h.2 _
    · exact ⟨h.1, ih h.2 _⟩
  | dir n md s r ihs ih =>
    intro pathOf
    unfold keep
    split
    · exact ih h.2.2 _
    · exact ⟨h.1, ihs h.2.1 _, ih h.2.2 _⟩

theorem meta_putLeaf {P : Meta → Prop} {n : Name} {md : Meta} {l : Leaf Bytes} {d : Dir Bytes} (h1 : P md)
    (h : AllMeta P d) : AllMeta P (d.putLeaf n md l) := by
  induction d with
  | nil => exact ⟨h1, trivial⟩
  | leaf n' md' l' r ih =>
    unfold Dir.putLeaf
    split
    · exact ⟨h1, h⟩
    · split
      · exact ⟨h1, h.2⟩
      · exact ⟨h.1, ih h.2⟩
  | dir n' md' s r _ ih =>
    unfold Dir.putLeaf
    split
    · exact ⟨h1, h⟩
    · split
      · exact ⟨h1, h.2.2⟩
      · exact ⟨h.1, h.2.1, ih h.2.2⟩

theorem meta_putDir {P : Meta → Prop} {n : Name} {md : Meta} {s d : Dir Bytes} (h1 : P md) (h2 : AllMeta P s)
    (h : AllMeta P d) : AllMeta P (Dir.putDir n md s d) := by
  induction d with
  | nil => exact ⟨h1, h2, trivial⟩
  | leaf n' md' l' r ih =>
    unfold Dir.putDir
    split
    · exact ⟨h1, h2, h⟩
    · split
      · exact ⟨h1, h2, h.2⟩
      · exact ⟨h.1, ih h.2⟩
  | dir n' md' s' r _ ih =>
    unfold Dir.putDir
    split
    · exact ⟨h1, h2, h⟩
    · split
      · exact ⟨h1, h2, h.2.2⟩
      · exact ⟨h.1, h.2.1, ih h.2.2⟩

theorem meta_putAll {P : Meta → Prop} {d : Dir Bytes} (h : AllMeta P d) : ∀ acc : Dir Bytes, AllMeta P acc → AllMeta P (putAll acc d) := by
  induction d with
  | nil => intro acc ha; exact ha
  | leaf n md l r ih => intro acc ha; exact ih h.2 _ (meta_putLeaf h.1 ha)
  | dir n md s r _ ih => intro acc ha; exact ih h.2.2 _ (meta_putDir h.1 h.2.1 ha)

theorem child_keep (filter : Path → Bool) (pathOf : Name → Path) {d : Dir Bytes} (hd : d.names.Nodup) (n : Name) :
    child (keep filter pathOf d) n =
      if filter (pathOf n) = false then none
      else match child d n with
        | none => none
        | some ((_, some .other), _) => none
        | some ((md, some l), s) => some ((md, some l), s)
        | some ((md, none), s) => some ((md, none), keep filter (fun m => pathOf n ++ [m]) s) := by
  induction d with
  | nil => simp [keep, child]
  | leaf m md l r ih =>
    obtain ⟨h1, h2⟩ := List.nodup_cons.mp hd
    have ih := ih h2
    conv_lhs => rw [keep]
    by_cases hn : n = m
    · subst hn
      have hr : child r n = none := child_none.mpr h1
      rw [hr] at ih
      by_cases hf : filter (pathOf n) = false
      · rw [if_pos (.inl hf), if_pos hf, ih, if_pos hf]
      · rw [if_neg hf] at ih ⊢
        cases l with
        | other => rw [if_pos (.inr rfl), ih]; simp [child]
        | file x => rw [if_neg (by simp [hf])]; simp [child]
        | link x => rw [if_neg (by simp [hf])]; simp [child]
    · split
      · rw [ih]; simp only [child, if_neg hn]
      · simp only [child, if_neg hn]; exact ih
  | dir m md s r _ ih =>
    obtain ⟨h1, h2⟩ := List.nodup_cons.mp hd
    have ih := ih h2
    conv_lhs => rw [keep]
    by_cases hn : n = m
    · subst hn
      have hr : child r n = none := child_none.mpr h1
      rw [hr] at ih
      by_cases hf : filter (pathOf n) = false
      · rw [if_pos hf, if_pos hf, ih, if_pos hf]
      · rw [if_neg hf, if_neg hf]
        simp only [child, if_pos]
    · split
      · rw [ih]; simp only [child, if_neg hn]
      · simp only [child, if_neg hn]; exact ih

theorem child_sorted {d : Dir Bytes} (h : SubsSorted d) {n : Name} {md : Meta} {s : Dir Bytes}
    (hc : child d n = some ((md, none), s)) : s.Sorted := by
  induction d with
  | nil => cases hc
  | leaf m md' l r ih =>
    unfold child at hc
    split at hc
    · cases hc
    · exact ih h hc
  | dir m md' s' r _ ih =>
    unfold child at hc
    split at hc
    · cases hc; exact h.1
    · exact ih h.2 hc

theorem wanted_cons {filter : Path → Bool} {p q : Path} {m : Name} :
    Wanted filter p (m :: q) ↔ filter p = true ∧ Wanted filter (p ++ [m]) q := by
  constructor
  · intro h
    refine ⟨by simpa using h 0 (by simp), fun k hk => ?_⟩
    have := h (k + 1) (by simp; omega)
    simpa using this
  · rintro ⟨h1, h2⟩ k hk
    cases k with
    | zero => simpa using h1
    | succ k =>
      have := h2 k (by simp at hk; omega)
      simpa using this

/-- What is at a path in what is kept. -/
theorem entry_keep (filter : Path → Bool) (q : Path) : ∀ (pathOf : Name → Path) {d : Dir Bytes} (n : Name),
    d.names.Nodup → SubsSorted d →
    Kept filter (pathOf n) q (entry d (n :: q)) (entry (keep filter pathOf d) (n :: q)) := by
  induction q with
  | nil =>
    intro pathOf d n hd _
    have hw : Wanted filter (pathOf n) [] ↔ filter (pathOf n) = true := by
      constructor
      · intro h; simpa using h 0 (by simp)
      · intro h k hk; simpa using h
    simp only [entry, child_keep filter pathOf hd]
    constructor
    · intro h1 h2
      rw [hw] at h1
      rw [if_neg (by simp [h1])]
      rcases hc : child d n with _ | ⟨⟨md, _ | l⟩, s⟩
      · rfl
      · rfl
      · cases l with
        | other => rw [hc] at h2; exact absurd rfl (h2 md)
        | file x => rfl
        | link x => rfl
    · intro h1
      rw [hw, Bool.not_eq_true] at h1
      rw [if_pos h1]; rfl
    · rintro ⟨md, h⟩
      split
      · rfl
      · rcases hc : child d n with _ | ⟨⟨md', _ | l⟩, s⟩
        · rfl
        · rw [hc] at h; cases h
        · rw [hc] at h; cases h; rfl
  | cons m q ih =>
    intro pathOf d n hd hs
    simp only [entry, child_keep filter pathOf hd]
    by_cases hf : filter (pathOf n) = false
    · rw [if_pos hf]
      refine ⟨fun h => ?_, fun _ => rfl, fun _ => rfl⟩
      rw [wanted_cons, hf] at h
      cases h.1
    · rw [if_neg hf]
      have hf' : filter (pathOf n) = true := by simpa using hf
      rcases hc : child d n with _ | ⟨⟨md', _ | l⟩, s⟩
      · exact ⟨fun _ _ => rfl, fun _ => rfl, fun _ => rfl⟩
      · have hsub := child_sorted hs hc
        obtain ⟨k1, k2, k3⟩ := ih (fun k => pathOf n ++ [k]) (d := s) m (sorted_names hsub).nodup (Sorted.subs hsub)
        have hw : Wanted filter (pathOf n) (m :: q) ↔ Wanted filter (pathOf n ++ [m]) q := by
          rw [wanted_cons]; simp [hf']
        exact ⟨fun h => k1 (hw.mp h), fun h => k2 (fun h' => h (hw.mpr h')), k3⟩
      · cases l <;> exact ⟨fun _ _ => rfl, fun _ => rfl, fun _ => rfl⟩

/-! ## What is given -/

theorem gather_eq {look : Look} {l : List Path} : ∀ {d : Dir Bytes}, gather look l = .ok d →
    (∀ p ∈ l, fileName p ≠ none ∧ look p ≠ none) ∧ d = listing (l.map (fun p => (lastName p, look p))) := by
  induction l with
  | nil => intro d h; cases h; exact ⟨(fun _ h => by cases h), rfl⟩
  | cons p l ih =>
    intro d h
    have hp : fileName p ≠ none ∧ look p ≠ none ∧ ∃ d', gather look l = .ok d' := by
      unfold gather at h
      split at h
      · cases h
      · rename_i n hn
        split at h
        · cases h
        · rename_i e sub he
          split at h
          · cases h
          · rename_i d' hd'
            exact ⟨by rw [hn]; simp, by rw [he]; simp, d', hd'⟩
    obtain ⟨h1, h2, d', h3⟩ := hp
    have hall : ∀ q ∈ p :: l, fileName q ≠ none ∧ look q ≠ none := by
      intro q hq
      rcases List.mem_cons.mp hq with rfl | hq
      · exact ⟨h1, h2⟩
      · exact (ih h3).1 q hq
    refine ⟨hall, ?_⟩
    rw [gather_ok _ hall] at h
    cases h; rfl

section
variable {look : Look} {a : BackupArgs} (h : Given look a)
include h

theorem Spec.Given.named {p : Path} (hp : p ∈ a.paths) : fileName p ≠ none := ((gather_eq h.fs).1 p hp).1

theorem Spec.Given.fs_eq : a.fs = listing (a.paths.map (fun p => (lastName p, look p))) := (gather_eq h.fs).2

theorem Spec.Given.names : a.fs.names.Nodup := by
  rw [h.fs_eq]
  refine List.Nodup.sublist (names_listing _) ?_
  rw [List.map_map]
  exact h.distinct

theorem Spec.Given.child {p : Path} (hp : p ∈ a.paths) : child a.fs (lastName p) = norm (look p) := by
  rw [h.fs_eq]
  exact child_listing (by rw [List.map_map]; exact h.distinct) (List.mem_map.mpr ⟨p, hp, rfl⟩)

theorem Spec.Given.entry {p : Path} (hp : p ∈ a.paths) (q : Path) : entry a.fs (lastName p :: q) = view (look p) q := by
  rw [← view_norm (look p)]
  have hc := h.child hp
  rcases ho : look p with _ | ⟨⟨md, _ | lf⟩, sub⟩
  · rw [ho] at hc
    cases q <;> simp only [Spec.entry, hc, norm, view]
    rfl
  · rw [ho] at hc
    cases q <;> simp only [Spec.entry, hc, norm, view] <;> rfl
  · rw [ho] at hc
    cases q <;> simp only [Spec.entry, hc, norm, view] <;> rfl

theorem entry_arrange {d : Dir Bytes} (hd : d.names.Nodup) (n : Name) (q : Path) :
    entry (arrange d) (n :: q) = entry d (n :: q) := by
  cases q <;> simp only [entry, child_arrange hd]

theorem kept_names : (keep a.filter a.pathOf a.fs).names.Nodup :=
  h.names.sublist (keep_names _ _ _)

/-- What a backup keeps of what is at a path. -/
theorem kept (hs : SubsSorted a.fs) {p : Path} (hp : p ∈ a.paths) (q : Path) :
    Kept a.filter p q (view (look p) q) (entry (arrange (keep a.filter a.pathOf a.fs)) (lastName p :: q)) := by
  rw [entry_arrange h (kept_names h), ← h.entry hp]
  have := entry_keep a.filter q a.pathOf (lastName p) h.names hs
  rw [h.pathOf p hp] at this
  exact this

end

/-! ## Restoring to an empty directory -/

theorem listing_none (l : List Path) : listing (l.map (fun p => (lastName p, (none : Option Ent2)))) = .nil := by
  induction l with
  | nil => rfl
  | cons p l ih => rw [List.map_cons, listing_cons]; exact ih

variable {Id : Type} [LinearOrder Id] {C : Codec Id} {R : Repo Id} {cut : Bytes → Nat} {look look0 : Look}
  {dangling : Path → Bool} {args : RestoreArgs} {s : Snapshot Id} {a : BackupArgs} {fs : Fs} {dst : Path} {md : Meta}

theorem dest_many (ho : args.output = some dst) (h : s.paths.length ≠ 1) (p : Path) : dest args s p = dst ++ [lastName p] := by
  unfold dest
  rw [ho]
  rcases hs : s.paths with _ | ⟨x, _ | ⟨y, l⟩⟩
  · rfl
  · rw [hs] at h; simp at h
  · rfl

theorem dest_one (ho : args.output = some dst) {p : Path} (h : s.paths = [p]) (q : Path) : dest args s q = dst := by
  unfold dest
  rw [ho, h]

theorem own_many (h : s.paths.length ≠ 1) : underOwnName args s look = [] := by
  unfold underOwnName
  split
  · rename_i h'; rw [h'] at h; simp at h
  · rfl

theorem sorted_none {d : Dir Bytes} (h : ∀ n, child d n = none) : d = .nil := by
  cases d with
  | nil => rfl
  | leaf n md l r => have := h n; simp [child] at this
  | dir n md s r => have := h n; simp [child] at this

theorem child_only {d : Dir Bytes} {n : Name} {md : Meta} (hd : d.Sorted)
    (h : ∀ m, child d m = child (.dir n md .nil .nil) m) : d = .dir n md .nil .nil :=
  Check.dir_ext hd ⟨(fun _ h => by cases h), trivial, trivial⟩ h

theorem byHash_dir {PF : List Id → Bytes → Prop} {t : Tree Id} {n : Name}
    (h : ByHash C PF t (.dir n md .nil .nil)) : t = [(n, ⟨.dir C.emptyId, md⟩)] := by
  unfold ByHash at h
  cases h with
  | dir h1 h2 h3 => cases h2; cases h3; subst h1; rfl

/-- A restore of what was backed up to an empty directory has what it needs. -/
theorem restoreOk_empty (hS : Sound C R) (hg : Given look0 a) (hsub : SubsSorted a.fs) (hc : Chunk.Contract cut)
    (hp : args.permissions = true → AllPosix a.fs) (hdt : args.times = true → AllMeta Datable a.fs)
    (hs : s.paths = a.paths) (hh : Holds C R s.tree (arrange (keep a.filter a.pathOf a.fs)))
    (ho : args.output = some dst) (he : EmptyDir look dangling fs dst md) (h1 : OneClash C R a.paths dst md) :
    RestoreOk C R cut look dangling args s (arrange (keep a.filter a.pathOf a.fs)) fs := by
  have hk : (arrange (keep a.filter a.pathOf a.fs)).KindsOk := C21.kinds_putAll (C21.kinds_keep _ hg.kinds _) _ trivial
  have htops : ∀ n ∈ (arrange (keep a.filter a.pathOf a.fs)).names, ∃ p ∈ s.paths, lastName p = n := by
    intro n hn
    rw [← not_not (a := n ∈ _), ← child_none, child_arrange (kept_names hg), child_none, not_not] at hn
    have hn := (keep_names _ _ _).subset hn
    rw [hg.fs_eq] at hn
    have := (names_listing _).subset hn
    rw [List.map_map] at this
    obtain ⟨p, hp, rfl⟩ := List.mem_map.mp this
    exact ⟨p, by rw [hs]; exact hp, rfl⟩
  have hnamed : ∀ p ∈ s.paths, fileName p ≠ none := fun p hp => hg.named (by rw [← hs]; exact hp)
  have hdist : (s.paths.map lastName).Nodup := by rw [hs]; exact hg.distinct
  have hfew : s.paths.length < 2 ^ 64 := by rw [hs]; exact hg.few
  have hpos : args.permissions = true → AllPosix (arrange (keep a.filter a.pathOf a.fs)) :=
    fun h => meta_putAll (meta_keep _ (hp h) _) _ trivial
  have hdat : args.times = true → AllMeta Datable (arrange (keep a.filter a.pathOf a.fs)) :=
    fun h => meta_putAll (meta_keep _ (hdt h) _) _ trivial
  have hout : ∀ {P : Prop}, args.output = none → P := fun h => by rw [ho] at h; cases h
  have hsingle : ∀ dst' p, args.output = some dst' → s.paths = [p] →
      look dst' ≠ none ∧ fileName dst' ≠ none ∧ (lastName dst').length < 2 ^ 64 := by
    intro dst' p h _
    rw [ho] at h
    cases h
    exact ⟨by rw [he.seen]; simp, he.named, he.short⟩
  have hsolid : ∀ dst', args.output = some dst' → s.paths.length ≠ 1 → ∀ p ∈ s.paths,
      dangling (dst' ++ [lastName p]) = false := by
    intro dst' h _ p _
    rw [ho] at h
    cases h
    exact he.links _
  by_cases hn : s.paths.length = 1
  · obtain ⟨p, hp1⟩ := List.length_eq_one_iff.mp hn
    have hpa : a.paths = [p] := by rw [← hs]; exact hp1
    have hshort : (lastName p).length < 2 ^ 64 := hg.short p (by simp [hpa])
    have hnow : now args s look = .dir (lastName p) md .nil .nil := by
      unfold now
      rw [hp1, List.map_singleton, dest_one ho hp1, listing_one, he.seen]
      rfl
    have hown : underOwnName args s look = [.dir (lastName dst) md .nil .nil] := by
      unfold underOwnName
      rw [ho, hp1]
      dsimp only
      rw [he.seen]
      rfl
    obtain ⟨o, ho1, ho2, ho3, ho4⟩ := he.there
    have inv : ∀ t : Tree Id, InvolvedTree C R cut (.dir (lastName p) md .nil .nil) [.dir (lastName dst) md .nil .nil] t →
        (∃ id, TreeAt C R id t) ∨ t = [(lastName p, ⟨.dir C.emptyId, md⟩)] ∨ t = [(lastName dst, ⟨.dir C.emptyId, md⟩)] := by
      rintro t (ht | ⟨s', hs', _, hb⟩)
      · exact .inl ht
      · rcases hs' with h | ⟨g1, g2⟩ | h
        · have : s' = .nil := by
            rcases h with h | h | h
            · exact h
            · exact h.elim
            · exact h.elim
          subst this
          cases hb
          exact .inl ⟨_, treeAt_nil⟩
        · rw [child_only g1 g2] at hb
          exact .inr (.inl (byHash_dir hb))
        · rw [List.mem_singleton.mp h] at hb
          exact .inr (.inr (byHash_dir hb))
    refine ⟨⟨hh, hk, hpos, htops, hnamed, hdist, hfew, hout, hout, hsingle, hsolid, ?_, ?_, ?_, ?_, ?_, ?_, ?_, hc, ?_, ?_⟩, hdat⟩
    · intro q _
      rw [dest_one ho hp1]
      exact he.enter
    · intro q _ r
      rw [dest_one ho hp1, he.seen]
      cases r with
      | nil => rw [List.append_nil, ho1]; exact ⟨ho2, ho3, ho4⟩
      | cons n r =>
        rw [(he.empty (n :: r) (by simp)).1]
        cases r <;> trivial
    · rw [hnow]; trivial
    · rw [hnow]; exact ⟨he.kind, trivial, trivial⟩
    · rw [hnow]; exact ⟨trivial, trivial⟩
    · rw [hnow]; exact ⟨hshort, he.ok, by decide, trivial, trivial⟩
    · rw [hnow]
      refine ⟨?_, trivial⟩
      trivial
    · rw [hnow]
      rintro x (h | h)
      · exact h.elim
      · exact h.elim
    · rw [hnow, hown]
      intro t t' ht ht' e
      exact h1 p hpa t t' (inv t ht) (inv t' ht') e
  · have hlook : ∀ p, look (dest args s p) = none := fun p => by
      rw [dest_many ho hn]; exact (he.empty _ (by simp)).2
    have hnow : now args s look = .nil := by
      unfold now
      simp only [hlook]
      exact listing_none _
    have inv : ∀ t : Tree Id, InvolvedTree C R cut .nil [] t → ∃ id, TreeAt C R id t := by
      rintro t (ht | ⟨s', hs', _, hb⟩)
      · exact ht
      · rcases hs' with h | ⟨_, g2⟩ | h
        · exact h.elim
        · rw [sorted_none g2] at hb
          cases hb
          exact ⟨_, treeAt_nil⟩
        · cases h
    refine ⟨⟨hh, hk, hpos, htops, hnamed, hdist, hfew, hout, hout, hsingle, hsolid, ?_, ?_, ?_, ?_, ?_, ?_, ?_, hc, ?_, ?_⟩, hdat⟩
    · intro p _
      rw [dest_many ho hn]
      obtain ⟨o, ho1, ho2, _⟩ := he.there
      refine ⟨by simp, fun k hk => ?_, ?_⟩
      · rw [List.length_append, List.length_singleton] at hk
        rw [List.take_append_of_le_length (by omega)]
        rcases Nat.lt_or_ge k dst.length with h | h
        · exact he.enter.links k h
        · rw [List.take_of_length_le h, ho1]
          rcases o with ⟨it, m, t⟩
          cases ho2
          rfl
      · rw [List.dropLast_concat, ho1]
        rcases o with ⟨it, m, t⟩
        cases ho2
        rfl
    · intro p _ r
      rw [hlook, dest_many ho hn, List.append_assoc, (he.empty _ (by simp)).1]
      trivial
    · rw [hnow]; trivial
    · rw [hnow]; trivial
    · rw [hnow]; trivial
    · rw [hnow]; trivial
    · rw [hnow]; trivial
    · rw [hnow]; intro x h; exact h.elim
    · rw [hnow, own_many hn]
      intro t t' ht ht' e
      obtain ⟨i, hi⟩ := inv t ht
      obtain ⟨j, hj⟩ := inv t' ht'
      have : i = j := by rw [← hi.2.1, ← hj.2.1, e]
      subst this
      exact hS.treeAt_one hi hj

end Backpak
