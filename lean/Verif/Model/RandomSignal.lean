import Verif.Model.Constellation

/-!
Signals made of random bits: `RandomBits.__new__`, qampy/signals.py:75-81, in `SignalQAMGrayCoded.__new__`, 658-676 (PSK signals inherit it).
-/

namespace Qampy

/-- The samples of `SignalQAMGrayCoded(M, N, nmodes)` for `M = 2^k`, signals.py:658-676: `int(N*log2(M))` bits are drawn for every mode (`np.random.randint(0, 2)`, 77)
and modulated mode by mode (722-731). The draws are inputs. -/
def signalNew {α : Type _} (k N nmodes : Nat) (coded : List α) (draw : Fin nmodes → Fin (N * k) → Bool) : List (List α) :=
  List.ofFn fun l => modulate k coded (List.ofFn (draw l))

end Qampy
