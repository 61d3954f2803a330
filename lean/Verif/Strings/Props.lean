import Verif.Strings.Copy
import Verif.Strings.Replace
import Verif.Strings.Split
import Verif.Strings.Utf8Hex
/-!
# strings.c: C28 (Copy), C29 (Replace), C30 (Split), C31 and C32 (Utf8Hex)
-/
