import Verif.Lemmas.LiveLookup
import Verif.Props.SafeLogs
/-
C86: looking up keys in a hive opened with recovery and logs does not crash.
-/
namespace Notatin
open Spec

/-- C86, by path, after log entries have been applied (partial: the hypotheses of `logs_open_partial`, and
`root_cell_crash_violated` and `get_key_self_violated` apply here, too).  Whatever the path, if the stack has room for as
many calls as the path has segments: the key is found, or the answer is that there is none. -/
theorem logs_get_key_partial (w : World) (hord : ∀ m, (w.order m).Perm m) (b : Builder) (hrec : b.recover = true)
    (hs : b.primary.length < w.steps) (hl : ∀ f ∈ b.logs, SaneLog f)
    (hc : ∀ logs warn, TransactionLog.parse b.logs = .ok (logs, warn) → CalmStages b.primary logs w.depth)
    (p : HiveParser) (hp : b.build w = some (.ok p)) (hls : SaneLists p.env.fi.buffer w.depth)
    (hroot : 0 ≤ p.header.base.rootCellOffset) (ro : Nat) (path : Str) (hasRoot : Bool)
    (hlen : path.count '\\' + 2 ≤ w.depth) :
    ∃ x ro', getKey p.env (p.after ro) p.header.base.rootCellOffset path hasRoot = .ok (x, ro') := by
  obtain ⟨x, ro', h, _⟩ := get_key_known w (by omega) p ((build_logs_safe w hord b hrec hs hl hc).2 p hp) hls hroot ro path
    hasRoot hlen
  exact ⟨x, ro', h⟩

/-- C86, from a key at hand, after log entries have been applied (partial: the hypotheses of `logs_open_partial`;
`parent_crash_violated` applies here, too; and the sub-keys of deleted keys by index or one after the other are left
out).  However a key has been obtained from the hive: its sub-keys can be read all at once or by a path, and its parent
can be read, without a crash; if it is not deleted, its sub-keys can be read by index and one after the other, too. -/
theorem logs_key_partial (w : World) (hord : ∀ m, (w.order m).Perm m) (b : Builder) (hrec : b.recover = true)
    (hs : b.primary.length < w.steps) (hl : ∀ f ∈ b.logs, SaneLog f) (hd : 0 < w.depth)
    (hc : ∀ logs warn, TransactionLog.parse b.logs = .ok (logs, warn) → CalmStages b.primary logs w.depth)
    (p : HiveParser) (hp : b.build w = some (.ok p)) (hls : SaneKeyLists p.env.fi.buffer w.depth)
    (n : Node) (hob : Obtained p n) (ro : Nat) :
    (n.key.cellState = .Allocated → ∀ i, ∃ x n', getSubKeyByIndex p.env (p.after ro) n i = .ok (x, n')) ∧
    (n.key.cellState = .Allocated → ∃ x n', nextSubKey p.env (p.after ro) n = .ok (x, n')) ∧
    (∃ ms, readSubKeys p.env (p.after ro) n = .ok ms) ∧
    (∀ sub, sub.count '\\' + 2 ≤ w.depth → ∃ x ro', getSubKeyByPath p.env (p.after ro) n sub = .ok (x, ro')) ∧
    (0 ≤ n.key.parentOffset → getParentKey p.env (p.after ro) n ≠ .panic) :=
  obtained_live w hd p ((build_logs_safe w hord b hrec hs hl hc).2 p hp) hls n hob ro

/-! ### Examples -/

/-- The hive of `logs_open_partial`'s example and its log. -/
def histBuilder : Builder := { primary := histBuf 1 1 1, logs := [histLog [histEntry 4 154 0]], recover := true }

theorem hist_built : (match histBuilder.build roomyWorld with
    | some (.ok p) => decide (CalmCheck p.env.fi.buffer ∧ 0 ≤ p.header.base.rootCellOffset)
    | _ => false) = true := by
  decide +kernel

theorem key_lists_of_check {buf : Bytes} (h : CalmCheck buf) (levels : Nat) : SaneKeyLists buf (levels + 1) := by
  intro o h1 h2
  have hat : o ∈ [4128, 4226, 4323] := by
    have := marks_mem _ _ _ 0 (o + 4) h1
    rw [h.1] at this
    simp at this ⊢
    omega
  obtain ⟨a, b⟩ := h.2.2 o hat h2
  rw [ListEnds, a]
  exact ⟨nofun, fun _ _ => b, nofun⟩

theorem hist_short : histBuilder.primary.length < roomyWorld.steps := by
  show (histBuf 1 1 1).length < 5000
  rw [show (histBuf 1 1 1).length = 4404 by decide +kernel]
  decide

theorem hist_sane : ∀ f ∈ histBuilder.logs, SaneLog f := by
  intro f hf
  cases List.mem_singleton.1 hf
  exact histLog_sane

/-- The hypotheses of `logs_get_key_partial`: paths with up to 4998 backslashes. -/
example : ∃ p, histBuilder.build roomyWorld = some (.ok p) ∧ ∀ ro path hasRoot, path.count '\\' ≤ 4998 →
    ∃ x ro', getKey p.env (p.after ro) p.header.base.rootCellOffset path hasRoot = .ok (x, ro') := by
  have h := hist_built
  split at h
  · rename_i p hp
    obtain ⟨h1, h2⟩ := of_decide_eq_true h
    exact ⟨p, hp, fun ro path hasRoot hlen => logs_get_key_partial roomyWorld (fun m => List.Perm.refl m) histBuilder rfl
      hist_short hist_sane (hist_calm 5000 (by decide)) p hp (calm_of_check h1 4999).2 h2 ro path hasRoot
      (by show _ + 2 ≤ 5000; omega)⟩
  · cases h

/-- The hypotheses of `logs_key_partial`: the key `b` the log takes away, and all others. -/
example : ∃ p, histBuilder.build roomyWorld = some (.ok p) ∧ ∀ n, Obtained p n →
    ∃ ms, readSubKeys p.env (p.after 0) n = .ok ms := by
  have h := hist_built
  split at h
  · rename_i p hp
    obtain ⟨h1, _⟩ := of_decide_eq_true h
    exact ⟨p, hp, fun n hn => (logs_key_partial roomyWorld (fun m => List.Perm.refl m) histBuilder rfl
      hist_short hist_sane (by decide) (hist_calm 5000 (by decide)) p hp (key_lists_of_check h1 4999) n hn 0).2.2.1⟩
  · cases h

end Notatin
