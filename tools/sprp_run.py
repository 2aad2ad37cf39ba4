"""Writes the modules lean/Verif/Proof/Sprp/Run*.lean: the search of Verif.Proof.Sprp.Defs, in pieces."""
import os
D = os.path.join(os.path.dirname(os.path.abspath(__file__)), "..", "lean", "Verif", "Proof", "Sprp")
N = 6539

def pieces(lo, hi, step):
    while lo < hi:
        n = min(step, hi - lo)
        yield lo, n
        lo += n

def emit(name, title, fun, args, ps, stmt, final):
    out = ["import Verif.Proof.Sprp.Data", "import Verif.Proof.Sprp.Sound" , "/-! %s -/" % title,
           "namespace Verif.Sprp", ""]
    for k, (lo, n) in enumerate(ps):
        out.append("theorem %s_%d : %s = true := by decide +kernel" % (fun, lo, stmt(lo, n)))
    out += ["", final(ps), "", "end Verif.Sprp", ""]
    open(os.path.join(D, name + ".lean"), "w").write("\n".join(out))

def collect(thm, stmt, fun, ps, bound, lo0=0, ex=None):
    o = ["theorem %s : %s := by" % (thm, stmt), "  intro i h0 hi" if lo0 else "  intro i hi"]
    for lo, n in ps:
        last = lo + n == bound
        pre = "" if last else "by_cases h%d : i < %d\n  · " % (lo + n, lo + n)
        body = "have h := (allBelow_iff _ _).1 %s_%d (i - %d) (by omega)\n    rw [show Nat.add %d (i - %d) = i from Nat.add_sub_cancel' (by omega)] at h\n    exact %s" % (fun, lo, lo, lo, lo, (ex or (lambda lo, n: "h"))(lo, n))
        if last:
            o.append("  · " + body)
        else:
            o.append("  by_cases h%d : i < %d" % (lo + n, lo + n))
            o.append("  · " + body)
    return "\n".join(o)

ps = list(pieces(0, N, 200))
emit("RunEntries", "Every entry of the table is right.", "entries", "", ps,
     lambda lo, n: "entries tab %d %d" % (lo, n),
     lambda ps: collect("entry_all", "∀ i < 6539, entry tab i = true", "entries", ps, N))
ps = list(pieces(50, N - 1, 200))
emit("RunGaps", "No prime is missing from the table.", "gaps", "", ps,
     lambda lo, n: "gaps tab smallP %d %d" % (lo, n),
     lambda ps: collect("gap_all", "∀ i, 50 ≤ i → i < 6538 → gap tab smallP i = true", "gaps", ps, N - 1, 50))
ps = list(pieces(0, N, 200))
emit("RunDivs", "The primes of the table divide `bigP`.", "divs", "", ps,
     lambda lo, n: "divs tab bigP %d %d" % (lo, n),
     lambda ps: collect("div_all", "∀ i < 6539, bigP % tp tab i = 0", "divs", ps, N, ex=lambda lo, n: "beq_of h"))
ps = list(pieces(0, 16383, 200))
emit("RunLarge", "No composite with a prime factor above 65536 passes.", "larges", "", ps,
     lambda lo, n: "larges bigP %d %d" % (lo, n),
     lambda ps: collect("large_all", "∀ i < 16383, (pos% (Nat.mul 2 (Nat.succ i)) as k => large bigP (Nat.succ k)) = true", "larges", ps, 16383))
def T(lo): return 400 if 300 <= lo < 500 else 300
A = list(pieces(0, 100, 25)) + list(pieces(100, 250, 50))
B = list(pieces(250, 500, 50)) + list(pieces(500, N, 200))
for name, ps, lo0, hi in (("RunRootsA", A, 0, 250), ("RunRootsB", B, 250, N)):
    st = "∀ i, 250 ≤ i → i < 6539 → ∃ T, root tab T i = true" if lo0 else "∀ i < 250, ∃ T, root tab T i = true"
    emit(name, "No composite with all prime factors below 65536 passes (largest prime number %d to %d)." % (lo0, hi - 1),
         "roots", "", ps, lambda lo, n: "roots tab %d %d %d" % (T(lo), lo, n),
         lambda ps: collect("root_all_" + name[-1], st, "roots", ps, hi, lo0, ex=lambda lo, n: "⟨_, h⟩"))
