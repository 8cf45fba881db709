import Verif.Model.Config

/-!
# C53 - Skip patterns accumulate and settings override
-/

namespace Backpak.C53

open Config

theorem mem_dedup (x : Bytes) : ∀ l : List Bytes, x ∈ dedup l ↔ x ∈ l
  | [] => Iff.rfl
  | [_] => Iff.rfl
  | a :: b :: rest => by
    unfold dedup
    split
    · rename_i h
      subst h
      rw [mem_dedup x (a :: rest)]
      simp
    · rw [List.mem_cons, mem_dedup x (b :: rest), List.mem_cons (a := x) (b := a)]

/-- The skips of the configuration and of the command line are all in force, and no others. -/
theorem together_partial (config args : List Bytes) (x : Bytes) : x ∈ mergeSkips config args ↔ x ∈ config ∨ x ∈ args := by
  unfold mergeSkips
  split
  · rename_i h; simp [h]
  · rw [mem_dedup, List.mem_insertionSort, List.mem_append]

theorem mapM_mem {α β : Type} {f : α → Option β} : ∀ {l : List α} {ms : List β}, l.mapM f = some ms →
    ∀ m, m ∈ ms ↔ ∃ a ∈ l, f a = some m := by
  intro l
  induction l with
  | nil => intro ms h m; simp at h; simp [h]
  | cons a l ih =>
    intro ms h m
    simp only [List.mapM_cons, Option.bind_eq_bind, Option.bind_eq_some_iff, Option.pure_def, Option.some.injEq] at h
    obtain ⟨b, hb, bs, hbs, rfl⟩ := h
    rw [List.mem_cons, ih hbs]
    constructor
    · rintro (rfl | ⟨a', h1, h2⟩)
      · exact ⟨a, by simp, hb⟩
      · exact ⟨a', List.mem_cons_of_mem _ h1, h2⟩
    · rintro ⟨a', h1, h2⟩
      rcases List.mem_cons.mp h1 with rfl | h1
      · rw [hb] at h2; exact .inl (Option.some.inj h2).symm
      · exact .inr ⟨a', h1, h2⟩

theorem mapM_some {α β : Type} {f : α → Option β} : ∀ {l : List α}, (l.mapM f).isSome = true ↔ ∀ a ∈ l, (f a).isSome = true := by
  intro l
  induction l with
  | nil => simp
  | cons a l ih =>
    rw [List.mapM_cons]
    cases hf : f a with
    | none => simp [hf]
    | some b =>
      cases hl : l.mapM f with
      | none =>
        rw [hl] at ih
        simp only [Option.isSome_none, Bool.false_eq_true, false_iff] at ih
        simp only [Option.bind_eq_bind, Option.bind_some, Option.bind_none, Option.isSome_none, Bool.false_eq_true,
          false_iff]
        exact fun h => ih (fun x hx => h x (List.mem_cons_of_mem _ hx))
      | some bs =>
        rw [hl] at ih
        simp only [Option.isSome_some, true_iff] at ih
        simp only [hf, Option.bind_eq_bind, Option.bind_some, Option.pure_def, Option.isSome_some, true_iff]
        intro x hx
        rcases List.mem_cons.mp hx with rfl | hx
        · rw [hf]; rfl
        · exact ih x hx

/-- A path is skipped exactly if a skip of the configuration or of the command line matches it,
provided all of them are regular expressions; else there is an error, and nothing is done. -/
theorem skipped (matcher : Bytes → Option (Bytes → Bool)) (config args : List Bytes) :
    ((∀ s, s ∈ config ∨ s ∈ args → (matcher s).isSome = true) →
      ∃ f, skipFilter matcher (mergeSkips config args) = .ok f ∧
        ∀ p, f p = false ↔ ∃ s, (s ∈ config ∨ s ∈ args) ∧ ∃ m, matcher s = some m ∧ m p = true) ∧
    ((∃ s, (s ∈ config ∨ s ∈ args) ∧ matcher s = none) →
      ∃ e, skipFilter matcher (mergeSkips config args) = .error e) := by
  constructor
  · intro h
    have : ((mergeSkips config args).mapM matcher).isSome = true :=
      mapM_some.mpr (fun s hs => h s ((together_partial _ _ _).mp hs))
    obtain ⟨ms, hms⟩ := Option.isSome_iff_exists.mp this
    refine ⟨fun p => !ms.any (fun m => m p), by simp only [skipFilter, hms], ?_⟩
    intro p
    rw [Bool.not_eq_false', List.any_eq_true]
    constructor
    · rintro ⟨m, hm, hp⟩
      obtain ⟨s, h1, h2⟩ := (mapM_mem hms m).mp hm
      exact ⟨s, (together_partial _ _ _).mp h1, m, h2, hp⟩
    · rintro ⟨s, h1, m, h2, hp⟩
      exact ⟨m, (mapM_mem hms m).mpr ⟨s, (together_partial _ _ _).mpr h1, h2⟩, hp⟩
  · rintro ⟨s, h1, h2⟩
    have : (mergeSkips config args).mapM matcher = none := by
      cases hm : (mergeSkips config args).mapM matcher with
      | none => rfl
      | some ms =>
        have := (mapM_some (f := matcher)).mp (by rw [hm]; rfl) s ((together_partial _ _ _).mpr h1)
        rw [h2] at this
        cases this
    exact ⟨.err "Skip rules are not valid regex", by simp only [skipFilter, this]⟩

/-- A global and a local configuration: the skips are the local ones, the output is the local one or
else the global one, and the size of the cache and whether to follow symlinks are the global ones. -/
theorem both {arg home : Option Bytes} {files : Bytes → File} {path : Bytes} {c lc : Config}
    (hp : path ≠ []) (ha : arg = some path ∨ (arg = none ∧ home = some path)) (hf : files path = .holds c) :
    load arg home files (.holds lc) = .ok ⟨c.cacheSize, lc.skips, c.dereference, lc.output.orElse (fun _ => c.output)⟩ := by
  unfold load
  rcases ha with rfl | ⟨rfl, rfl⟩
  · rw [if_neg (by simp [hp])]
    simp only [hf, File.read]
    cases lc.output <;> rfl
  · rw [if_neg (by simp)]
    simp only [hf, File.read]
    cases lc.output <;> rfl

/-- Only a global configuration: it is in force. -/
theorem global_only {arg home : Option Bytes} {files : Bytes → File} {path : Bytes} {c : Config}
    (hp : path ≠ []) (ha : arg = some path ∨ (arg = none ∧ home = some path)) (hf : files path = .holds c) :
    load arg home files .missing = .ok c := by
  unfold load
  rcases ha with rfl | ⟨rfl, rfl⟩
  · rw [if_neg (by simp [hp])]
    simp only [hf, File.read]
  · rw [if_neg (by simp)]
    simp only [hf, File.read]

/-- Only a local configuration: it is ignored, whatever it says. -/
theorem local_ignored {home : Bytes} {files : Bytes → File} (hf : files home = .missing) (here : File) :
    load none (some home) files here = .ok default := by
  unfold load
  rw [if_neg (by simp)]
  simp only [hf, File.read]

/-- What was asked of skips - that global, local and command line skips are all in force - is false
of the first two: the global skip `a` is not in force. -/
theorem global_skips_replaced : ∃ (files : Bytes → File) (here : File) (conf : Config),
    load none (some [104]) files here = .ok conf ∧ files [104] = .holds ⟨5, [[97]], true, none⟩ ∧
    here = .holds ⟨5, [[98]], false, none⟩ ∧ mergeSkips conf.skips [[99]] = [[98], [99]] ∧
    [97] ∉ mergeSkips conf.skips [[99]] :=
  ⟨fun _ => .holds ⟨5, [[97]], true, none⟩, .holds ⟨5, [[98]], false, none⟩, ⟨5, [[98]], true, none⟩, by decide, rfl,
    rfl, by decide, by decide⟩

/-- Flags override whatever is configured. -/
theorem flags (conf : Config) (o : Bytes) : follows conf true false = true ∧ follows conf false true = false ∧
    follows conf false false = conf.dereference ∧ outputOf conf (some o) = some o ∧ outputOf conf none = conf.output :=
  ⟨rfl, rfl, rfl, rfl, rfl⟩

/-! ## Examples -/

/-- Patterns that match the paths they are a prefix of; `*` is not a pattern. -/
def prefixes (s : Bytes) : Option (Bytes → Bool) := if s = [42] then none else some (fun p => s.isPrefixOf p)

example : mergeSkips [[98], [97]] [[98], [99], [97]] = [[97], [98], [99]] := by decide

example : (∀ s, s ∈ [[98], [97]] ∨ s ∈ ([[99]] : List Bytes) → (prefixes s).isSome = true) ∧
    ((skipFilter prefixes (mergeSkips [[98], [97]] [[99]])).toOption.map (fun f => [f [97, 1], f [99, 1], f [100, 1]])) =
      some [false, false, true] ∧
    (skipFilter prefixes (mergeSkips [[98], [97]] [[42]])).toOption.isNone = true := by
  refine ⟨?_, by decide, by decide⟩
  intro s hs
  simp at hs
  rcases hs with (rfl | rfl) | rfl <;> rfl

end Backpak.C53
